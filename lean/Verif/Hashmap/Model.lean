import Mathlib.Logic.Function.Basic
import Verif.Basic

/-!
Model of the hash map in which a Postgres connection keeps its prepared statements and portals: `/repo/src/hashmap.c:31-34,37-61,
80-99,104-162,226-314,320-349`, as `/repo/src/postgres.c:224-325` uses it (`hashmap_set`, `hashmap_get`; nothing is ever
deleted from it).

An item is a name and what is kept under it, `Bytes × α`; the hash of an item is a function of its name
(`pg_statement_hash`, `pg_portal_hash`, postgres.c:224-238) and two items compare equal when their names are equal
(`pg_statement_compare`, `pg_portal_compare`, postgres.c:240-256: `strcmp` of the names, which hold no NUL).

Simplifications: quantities that count buckets are unbounded naturals; the 16-bit `dib` is reduced modulo 65536 like the C bit
field; `xmalloc` never fails (xmalloc.c ends the program instead), so the branches for a failed allocation are left out.  `ovf` is
a ghost flag without counterpart in the code: it records that some `dib` has wrapped past 65535.
-/

namespace Verif.Hashmap

/-- `map->hash` with the seeds 0 and 0, `/repo/src/postgres.c:261-263,275-277`: any function of the name to 64 bits. -/
structure Ctx where
  H : Bytes → Nat

/-- `struct bucket` and the item behind it, `/repo/src/hashmap.c:31-34,89-91`.  The item of a bucket with `dib = 0` is never read. -/
structure Bucket (α : Type) where
  ent : Bytes × α
  hash : Nat
  dib : Nat

variable {α : Type} [Inhabited α]

/-- A zeroed bucket (`memset`, `/repo/src/hashmap.c:153`). -/
def emptyBucket : Bucket α := ⟨default, 0, 0⟩

/-- `struct hashmap`, `/repo/src/hashmap.c:37-61`; `mask` is always `nbuckets-1`, and `cap` and `shrinkat` are only read when an item
is deleted. -/
structure Tbl (α : Type) where
  nbuckets : Nat
  count : Nat
  growat : Nat
  buckets : Nat → Bucket α
  ovf : Bool

/-- `map->mask`, `/repo/src/hashmap.c:147`. -/
def Tbl.mask (m : Tbl α) : Nat := m.nbuckets - 1

/-- `clip_hash`, `/repo/src/hashmap.c:93-95`. -/
def clipHash (h : Nat) : Nat := h % 2 ^ 48

/-- `get_hash`, `/repo/src/hashmap.c:97-99`. -/
def Ctx.hash48 (c : Ctx) (k : Bytes) : Nat := clipHash (c.H k)

/-- `map->nbuckets * (map->loadfactor / 100.0)`, `/repo/src/hashmap.c:155-156`, with `loadfactor` 60 (lines 12-17, 67-73).  `nbuckets`
is a power of two, so the product is at least 1/5 away from an integer and truncating it is the integer division. -/
def growAt (n : Nat) : Nat := n * 60 / 100

/-- `hashmap_new_with_allocator`, `/repo/src/hashmap.c:104-162`, for a capacity that is a power of two and at least 16. -/
def new (cap : Nat) : Tbl α :=
  { nbuckets := cap, count := 0, growat := growAt cap, buckets := fun _ => emptyBucket, ovf := false }

/-- `hashmap_new_with_allocator` with `cap` 0, `/repo/src/hashmap.c:115-117` (`ncap = 16`). -/
def new0 : Tbl α := new 16

/-- `entry->dib += 1` on a 16-bit field, `/repo/src/hashmap.c:250,312`. -/
def Bucket.bump (b : Bucket α) : Bucket α := { b with dib := (b.dib + 1) % 65536 }

/-- The inner loop of `resize0`, `/repo/src/hashmap.c:238-251`.  `none` = fuel exhausted. -/
def placeLoop (mask : Nat) : Nat → (Nat → Bucket α) → Bool → Nat → Bucket α → Option ((Nat → Bucket α) × Bool)
  | 0, _, _, _, _ => none
  | fuel + 1, b, ovf, j, eb =>
    if (b j).dib = 0 then some (Function.update b j eb, ovf)
    else if (b j).dib < eb.dib then
      placeLoop mask fuel (Function.update b j eb) (ovf || decide ((b j).dib + 1 ≥ 65536))
        ((j + 1) &&& mask) (b j).bump
    else
      placeLoop mask fuel b (ovf || decide (eb.dib + 1 ≥ 65536)) ((j + 1) &&& mask) eb.bump

/-- One iteration of the outer loop of `resize0`, `/repo/src/hashmap.c:231-252`. -/
def resizeStep (n2 : Nat) (src : Nat → Bucket α) (acc : Option ((Nat → Bucket α) × Bool)) (i : Nat) :
    Option ((Nat → Bucket α) × Bool) :=
  acc.bind fun a =>
    if (src i).dib ≠ 0 then
      placeLoop (n2 - 1) (n2 + 1) a.1 a.2 ((src i).hash &&& (n2 - 1)) { src i with dib := 1 }
    else some a

/-- `resize0`, `/repo/src/hashmap.c:226-261`.  `none` is a loop that does not stop. -/
def resize (m : Tbl α) (newCap : Nat) : Option (Tbl α) :=
  ((List.range m.nbuckets).foldl (resizeStep newCap m.buckets)
      (some ((new newCap : Tbl α).buckets, m.ovf))).map fun a =>
    { (new newCap : Tbl α) with buckets := a.1, ovf := a.2, count := m.count }

/-- The loop of `hashmap_set_with_hash`, `/repo/src/hashmap.c:290-313`: the table afterwards and the replaced item. -/
def insertLoop : Nat → Tbl α → Nat → Bucket α → Option (Tbl α × Option (Bytes × α))
  | 0, _, _, _ => none
  | fuel + 1, m, i, eb =>
    let b := m.buckets i
    if b.dib = 0 then
      some ({ m with buckets := Function.update m.buckets i eb, count := m.count + 1 }, none)
    else if eb.hash = b.hash ∧ eb.ent.1 = b.ent.1 then
      some ({ m with buckets := Function.update m.buckets i { b with ent := eb.ent } }, some b.ent)
    else if b.dib < eb.dib then
      insertLoop fuel
        { m with buckets := Function.update m.buckets i eb, ovf := m.ovf || decide (b.dib + 1 ≥ 65536) }
        ((i + 1) &&& m.mask) b.bump
    else
      insertLoop fuel { m with ovf := m.ovf || decide (eb.dib + 1 ≥ 65536) }
        ((i + 1) &&& m.mask) eb.bump

/-- `hashmap_set` and `hashmap_set_with_hash`, `/repo/src/hashmap.c:270-322`: the table afterwards and the replaced item, if any.  The
outer `none` is a loop that does not stop. -/
def set (c : Ctx) (m : Tbl α) (e : Bytes × α) : Option (Tbl α × Option (Bytes × α)) :=
  let h := c.hash48 e.1
  let go (m : Tbl α) : Option (Tbl α × Option (Bytes × α)) :=
    insertLoop (m.nbuckets + 1) m (h &&& m.mask) ⟨e, h, 1⟩
  if m.count ≥ m.growat then (resize m (m.nbuckets * 2)).bind go else go m

/-- The loop of `hashmap_get_with_hash`, `/repo/src/hashmap.c:332-342`: the bucket, or `none` for NULL. -/
def getLoop (m : Tbl α) (key : Bytes) (hash : Nat) : Nat → Nat → Option (Option Nat)
  | 0, _ => none
  | fuel + 1, i =>
    if (m.buckets i).dib = 0 then some none
    else if (m.buckets i).hash = hash ∧ (m.buckets i).ent.1 = key then some (some i)
    else getLoop m key hash fuel ((i + 1) &&& m.mask)

/-- `hashmap_get` and `hashmap_get_with_hash`, `/repo/src/hashmap.c:327-349`: the bucket that holds the item. -/
def getBucket (c : Ctx) (m : Tbl α) (key : Bytes) : Option (Option Nat) :=
  getLoop m key (c.hash48 key) (m.nbuckets + 1) (c.hash48 key &&& m.mask)

/-- What `hashmap_get` returns, `/repo/src/hashmap.c:338,347-349`. -/
def get (c : Ctx) (m : Tbl α) (key : Bytes) : Option (Option α) :=
  (getBucket c m key).map fun r => r.map fun i => (m.buckets i).ent.2

/-- `hashmap_iter` called until it returns false, `/repo/src/hashmap.c:468-477`: the items it yields. -/
def iter (m : Tbl α) : List (Bytes × α) :=
  ((List.range m.nbuckets).map m.buckets).filterMap fun b => if b.dib ≠ 0 then some b.ent else none

/-- `portal_insert` and `statement_insert`, `/repo/src/postgres.c:258-285`: the table (the pointer is NULL, `none`, before the first
item) and the replaced item, which is freed. -/
def insert (c : Ctx) (t : Option (Tbl α)) (e : Bytes × α) : Option (Option (Tbl α) × Option (Bytes × α)) :=
  (set c (t.getD new0) e).map fun r => (some r.1, r.2)

/-- `statement_get` and `portal_get`, `/repo/src/postgres.c:287-325`; `PGNAMEDATALEN` is 64. -/
def lookup (c : Ctx) (t : Option (Tbl α)) (name : Bytes) : Option (Option α) :=
  match t with
  | none => some none
  | some m => if name.length ≥ 64 then some none else get c m name

/-- `statments_free` and `portals_free`, `/repo/src/postgres.c:173-199`: the items that are freed. -/
def freeAll (t : Option (Tbl α)) : List (Bytes × α) :=
  match t with
  | none => []
  | some m => iter m

end Verif.Hashmap
