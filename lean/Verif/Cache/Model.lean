import Verif.Shard.Model

/-!
Model of the cache: an array of shards, `/repo/src/pogocache.c:719-726,1213-1249,1368-1394` and the public
operations over it.  Calls run one at a time here; `Verif.Conc` treats interleavings.
-/

namespace Verif.Cache

open Verif.Map Verif.Shard

/-- `shard_index`, `/repo/src/pogocache.c:1243-1245`, applied to the 64-bit hash of the key
(`acquire_for_key`, lines 1357-1358). -/
def shardIdx (c : Ctx) (n : Nat) (key : Bytes) : Nat := c.H key % 2 ^ 64 / 2 ^ 32 % n

/-- `cache->shards`; only indices below the number of shards exist. -/
abbrev Shards := Nat → Sh

/-- `pogocache_new` when all allocations succeed, `/repo/src/pogocache.c:1216-1241`. -/
def newCache (c : Ctx) : Shards := fun _ => shardInit c

/-- Result of a call: the shards, the status, the notifications, the entries shown to the callback. -/
structure CRes where
  shs : Shards
  status : Status
  evs : List Ev
  seen : List Ent

/-- `ACQUIRE_FOR_KEY_AND_EXECUTE`, `/repo/src/pogocache.c:1368-1381`: run an operation on the shard of the
key. -/
def onKey (c : Ctx) (n : Nat) (key : Bytes) (op : Sh → Out Res) (shs : Shards) : Out CRes :=
  let i := shardIdx c n key
  (op (shs i)).bind fun r => .val ⟨Function.update shs i r.sh, r.status, r.evs, r.seen⟩

/-- The loop of `pogocache_iter`, `/repo/src/pogocache.c:1744-1751`, over a list of shard indices; `acc` is
what the callback was shown in earlier shards. -/
def iterShards (c : Ctx) (mem : Nat → Mem) (now : Int) (cb : Option (List Ent → Ent → Act)) :
    List Nat → List Ent → Shards → Out CRes
  | [], acc, shs => .val ⟨shs, .finished, [], acc⟩
  | i :: is, acc, shs =>
    (iterOp c (mem i) now (cb.map fun f l e => f (acc ++ l) e) (shs i)).bind fun r =>
      let shs' := Function.update shs i r.sh
      if r.status ≠ .finished then .val ⟨shs', r.status, r.evs, acc ++ r.seen⟩
      else
        (iterShards c mem now cb is (acc ++ r.seen) shs').bind fun q =>
          .val { q with evs := r.evs ++ q.evs }

/-- The loop of `pogocache_sweep`, `/repo/src/pogocache.c:1957-1966`: result, swept and kept counts. -/
def sweepShards (c : Ctx) (mem : Nat → Mem) (now : Int) : List Nat → Shards → Out (CRes × Nat × Nat)
  | [], shs => .val (⟨shs, .finished, [], []⟩, 0, 0)
  | i :: is, shs =>
    (sweepOp c (mem i) now (shs i)).bind fun (r, sw, kp) =>
      (sweepShards c mem now is (Function.update shs i r.sh)).bind fun (q, sw', kp') =>
        .val ({ q with evs := r.evs ++ q.evs }, sw + sw', kp + kp')

/-- The loop of `pogocache_clear`, `/repo/src/pogocache.c:2058-2061`. -/
def clearShards (c : Ctx) (mem : Nat → Mem) (now : Int) : List Nat → Shards → Out CRes
  | [], shs => .val ⟨shs, .finished, [], []⟩
  | i :: is, shs =>
    (clearOp c (mem i) now (shs i)).bind fun r =>
      (clearShards c mem now is (Function.update shs i r.sh)).bind fun q =>
        .val { q with evs := r.evs ++ q.evs }

/-- The shards a call works on: all of them, or one if it exists
(`/repo/src/pogocache.c:1736-1743,1951-1956,2052-2057`). -/
def scope (n : Nat) : Option Int → List Nat
  | none => List.range n
  | some i => if i < 0 ∨ i ≥ n then [] else [i.toNat]

/-- A public call. -/
inductive Op where
  | load (key : Bytes) (o : LoadOpts)
  | store (key val : Bytes) (o : StoreOpts)
  | delete (key : Bytes) (cb : Option (Ent → Bool))
  | iter (one : Option Int) (cb : Option (List Ent → Ent → Act))
  | sweep (one : Option Int)
  | clear (one : Option Int)

/-- Run a public call: `pogocache_load` (`/repo/src/pogocache.c:1455`), `pogocache_store` (1660),
`pogocache_delete` (1516), `pogocache_iter` (1732), `pogocache_sweep` (1942), `pogocache_clear` (2047). -/
def exec (c : Ctx) (n : Nat) (mem : Nat → Mem) (now : Int) (op : Op) (shs : Shards) : Out CRes :=
  match op with
  | .load key o => onKey c n key (loadOp c (mem (shardIdx c n key)) now key o) shs
  | .store key val o => onKey c n key (storeOp c (mem (shardIdx c n key)) now key val o) shs
  | .delete key cb => onKey c n key (deleteOp c (mem (shardIdx c n key)) now key cb) shs
  | .iter one cb => iterShards c mem now cb (scope n one) [] shs
  | .sweep one => (sweepShards c mem now (scope n one) shs).bind fun (r, _, _) => .val r
  | .clear one => clearShards c mem now (scope n one) shs

/-- `pogocache_count`, `/repo/src/pogocache.c:1823-1846`, of all shards. -/
def count (n : Nat) (shs : Shards) : Nat := ((List.range n).map fun i => countOp (shs i)).sum

end Verif.Cache
