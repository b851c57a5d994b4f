import Verif.Map.Model
import Verif.Num.Model

/-!
Model of the operations on one shard, `/repo/src/pogocache.c:699-705,1027-1132,1396-1723,1755-2024`.

* `now` is the resolved time (`opts->time > 0 ? opts->time : getnow()`), an arbitrary integer.
* A user callback is an arbitrary function of what it is shown (iteration: also of everything it was
  shown before in the same iteration).
* `Mem` says which allocations of the operation succeed.
* Notifications are collected in a list, in order.  `ctx->notify` sees the new and old entry of each,
  `ctx->evicted` sees the old entry and the reason of the evicting kinds (lines 1064-1083).
* `entry_free`/reference counts are the subject of `Verif.Refs`.
-/

namespace Verif.Shard

open Verif.Map

/-- Outcome of running C code: a value, a loop that never stops, undefined behaviour, or a failed
`assert`.  The flag of `abort` is ghost: whether a distance byte had wrapped by then. -/
inductive Out (α : Type) where
  | val (a : α)
  | hang
  | ub
  | abort (wrapped : Bool)
deriving DecidableEq, Repr

/-- Sequencing. -/
def Out.bind {α β : Type} (x : Out α) (f : α → Out β) : Out β :=
  match x with
  | .val a => f a
  | .hang => .hang
  | .ub => .ub
  | .abort w => .abort w

/-- A fuel-exhausted loop is `hang`. -/
def ofLoop {α : Type} : Option α → Out α
  | some a => .val a
  | none => .hang

/-- `assert(cond)`; `m` is the table at that moment. -/
def assert (m : Tbl) (p : Bool) : Out Unit := if p then .val () else .abort m.ovf

/-- `struct shard`, `/repo/src/pogocache.c:699-705` (the lock is the subject of `Verif.Conc`). -/
structure Sh where
  cas : Nat
  map : Tbl

/-- `shard_init` when the allocation succeeds, `/repo/src/pogocache.c:1154-1164`. -/
def shardInit (c : Ctx) : Sh := ⟨1, mapInit c 64⟩

/-- Status codes, `/repo/src/pogocache.h:19-26`. -/
inductive Status where
  | inserted | replaced | found | notfound | deleted | finished | canceled | nomem
deriving DecidableEq, Repr

/-- Notifications, `/repo/src/pogocache.c:1018-1083`. -/
inductive Ev where
  | inserted (new : Ent)
  | deleted (old : Ent)
  | replaced (new old : Ent)
  | expired (old : Ent)
  | cleared (old : Ent)
  | lowmem (old : Ent)
deriving DecidableEq, Repr

/-- Which allocations succeed. -/
structure Mem where
  ent : Bool
  tbl : Bool
  tbl2 : Bool
deriving DecidableEq, Repr

/-- `struct pogocache_update`, `/repo/src/pogocache.h:103-108`. -/
structure Update where
  value : Bytes
  flags : Nat
  expires : Int
deriving DecidableEq, Repr

/-- Result of an operation: the shard, the status, the notifications and the entries shown to the
user's callback. -/
structure Res where
  sh : Sh
  status : Status
  evs : List Ev
  seen : List Ent

/-! ### Load -/

/-- `struct pogocache_load_opts`, `/repo/src/pogocache.h:110-119`. -/
structure LoadOpts where
  notouch : Bool
  entry : Option (Ent → Option Update)

/-- `set_entry(bkt, e)` at bucket `i`, `/repo/src/pogocache.c:728-730`. -/
def setEntry (m : Tbl) (i : Nat) (e : Ent) : Tbl :=
  { m with buckets := Function.update m.buckets i { m.buckets i with ent := e } }

/-- `loadop`, `/repo/src/pogocache.c:1396-1446`. -/
def loadOp (c : Ctx) (mem : Mem) (now : Int) (key : Bytes) (o : LoadOpts) (s : Sh) : Out Res :=
  (ofLoop (getBucket c s.map key)).bind fun
    | none => .val ⟨s, .notfound, [], []⟩
    | some i =>
      let entry := (s.map.buckets i).ent
      if !aliveExp entry.expires now then
        (ofLoop (delbkt s.map i)).bind fun m =>
          .val ⟨{ s with map := m }, .notfound, [.expired entry], []⟩
      else
        let entry1 := if o.notouch then entry else { entry with time := now }
        let s1 := { s with map := setEntry s.map i entry1 }
        match o.entry with
        | none => .val ⟨s1, .found, [], []⟩
        | some cb =>
          match cb entry1 with
          | none => .val ⟨s1, .found, [], [entry1]⟩
          | some u =>
            let s2 := { s1 with cas := s1.cas + 1 }
            if !mem.ent then .val ⟨s2, .nomem, [], [entry1]⟩
            else
              let entry2 := mkEnt c key u.value u.expires u.flags s2.cas now
              .val ⟨{ s2 with map := setEntry s2.map i entry2 }, .found, [.replaced entry2 entry1], [entry1]⟩

/-! ### Delete -/

/-- The callback is given and returns false (`/repo/src/pogocache.c:1487-1491,1610-1623`). -/
def refuses (cb : Option (Ent → Bool)) (e : Ent) : Bool :=
  match cb with
  | none => false
  | some f => !f e

/-- What a callback is shown. -/
def shown {α : Type} (cb : Option α) (e : Ent) : List Ent := if cb.isSome then [e] else []

/-- `deleteop`, `/repo/src/pogocache.c:1463-1509`. -/
def deleteOp (c : Ctx) (mem : Mem) (now : Int) (key : Bytes) (cb : Option (Ent → Bool)) (s : Sh) : Out Res :=
  (ofLoop (mapDelete c s.map key)).bind fun (m1, r) =>
    match r with
    | none => .val ⟨s, .notfound, [], []⟩
    | some entry =>
      if !entry.alive now then
        (ofLoop (tryShrink c m1 mem.tbl2)).bind fun m2 =>
          .val ⟨{ s with map := m2 }, .notfound, [.expired entry], []⟩
      else
        let seen := shown cb entry
        if refuses cb entry then
          (ofLoop (mapInsert c m1 entry mem.tbl)).bind fun (m2, r) =>
            match r with
            | none => .abort m2.ovf
            | some old => (assert m2 old.isNone).bind fun _ =>
                .val ⟨{ s with map := m2 }, .canceled, [], seen⟩
        else
          (ofLoop (tryShrink c m1 mem.tbl2)).bind fun m2 =>
            .val ⟨{ s with map := m2 }, .deleted, [.deleted entry], seen⟩

/-! ### Eviction -/

/-- `evict_entry`, `/repo/src/pogocache.c:1085-1096`; the caller adds the notification. -/
def evictEntry (c : Ctx) (m : Tbl) (e : Ent) : Out Tbl :=
  (ofLoop (mapDelete c m e.key)).bind fun (m', r) =>
    (assert m' (r == some e)).bind fun _ => .val m'

/-- What the search loop of `auto_evict_entry` finds: an expired entry at once, or up to two
candidates. -/
inductive Pick where
  | expired (e : Ent)
  | cands (l : List Ent)
deriving DecidableEq, Repr

/-- The loop of `auto_evict_entry`, `/repo/src/pogocache.c:1108-1121`. `rem` iterations remain. -/
def pickLoop (m : Tbl) (hash : Nat) (now : Int) : Nat → Nat → List Ent → Pick
  | 0, _, acc => .cands acc
  | rem + 1, i, acc =>
    if acc.length < 2 then
      let b := m.buckets ((i + hash) &&& (m.nbuckets - 1))
      if b.dib = 0 ∨ b.hash = hash then pickLoop m hash now rem (i + 1) acc
      else if !b.ent.alive now then .expired b.ent
      else pickLoop m hash now rem (i + 1) (acc ++ [b.ent])
    else .cands acc

/-- `auto_evict_entry`, `/repo/src/pogocache.c:1101-1136`. -/
def autoEvict (c : Ctx) (m : Tbl) (hash : Nat) (now : Int) : Out (Tbl × List Ev) :=
  match pickLoop m hash now (m.nbuckets - 1) 1 [] with
  | .expired e => (evictEntry c m e).bind fun m' => .val (m', [.expired e])
  | .cands [e] => (evictEntry c m e).bind fun m' => .val (m', [.lowmem e])
  | .cands [e0, e1] =>
    let e := if e0.time < e1.time then e0 else e1
    (evictEntry c m e).bind fun m' => .val (m', [.lowmem e])
  | .cands _ => .val (m, [])

/-! ### Store -/

/-- `struct pogocache_store_opts`, `/repo/src/pogocache.h:79-101`. -/
structure StoreOpts where
  expires : Int
  ttl : Int
  cas : Nat
  flags : Nat
  keepttl : Bool
  casop : Bool
  nx : Bool
  xx : Bool
  lowmem : Bool
  entry : Option (Ent → Bool)

/-- The requested expiry, `/repo/src/pogocache.c:1531-1536`. -/
def reqExpires (o : StoreOpts) (now : Int) : Out Int :=
  if o.expires > 0 then .val o.expires
  else if o.ttl > 0 then
    match Num.addClamp now o.ttl with
    | some x => .val x
    | none => .ub
  else .val 0

/-- The expiry of the new entry, `/repo/src/pogocache.c:1531-1548`. -/
def storeExpires (c : Ctx) (now : Int) (key : Bytes) (o : StoreOpts) (s : Sh) : Out Int :=
  (reqExpires o now).bind fun expires =>
  if o.keepttl then
    (ofLoop (getBucket c s.map key)).bind fun
      | none => .val expires
      | some i =>
        let old := (s.map.buckets i).ent
        .val (if old.alive now then old.expires else expires)
  else .val expires

/-- The decision to put the old entry back before asking the user, `/repo/src/pogocache.c:1571-1587`. -/
def putBack (c : Ctx) (o : StoreOpts) (old : Ent) : Bool :=
  if o.casop then (if c.usecas then o.cas ≠ old.cas else true) else o.nx

/-- `put_back`, `/repo/src/pogocache.c:1588-1600`. -/
def doPutBack (c : Ctx) (mem : Mem) (s : Sh) (m : Tbl) (old entry : Ent) (evs : List Ev) (st : Status)
    (seen : List Ent) : Out Res :=
  (ofLoop (mapInsert c m old mem.tbl2)).bind fun (m2, r) =>
    match r with
    | none => .abort m2.ovf
    | some e => (assert m2 (e == some entry)).bind fun _ => .val ⟨{ s with map := m2 }, st, evs, seen⟩

/-- `storeop`, `/repo/src/pogocache.c:1524-1645`. -/
def storeOp (c : Ctx) (mem : Mem) (now : Int) (key val : Bytes) (o : StoreOpts) (s0 : Sh) : Out Res :=
  let count := s0.map.count
  (storeExpires c now key o s0).bind fun expires =>
  let s := { s0 with cas := s0.cas + 1 }
  if !mem.ent then .ub  -- nomem: entry_free(NULL), lines 1550-1552, 1642-1644
  else
    let entry := mkEnt c key val expires o.flags s.cas now
    if o.lowmem && c.noevict then .val ⟨s, .nomem, [], []⟩
    else
      (ofLoop (mapInsert c s.map entry mem.tbl)).bind fun (m1, r) =>
      match r with
      | none => .val ⟨{ s with map := m1 }, .nomem, [], []⟩
      | some old0 =>
        let dead := match old0 with
          | some e => !e.alive now
          | none => false
        let evs := match old0 with
          | some e => if dead then [Ev.expired e] else []
          | none => []
        let old := if dead then none else old0
        match old with
        | some old =>
          if putBack c o old then doPutBack c mem s m1 old entry evs .found []
          else
            let seen := shown o.entry old
            if refuses o.entry old then doPutBack c mem s m1 old entry evs .canceled seen
            else .val ⟨{ s with map := m1 }, .replaced, evs ++ [.replaced entry old], seen⟩
        | none =>
          if o.xx || o.casop then
            (ofLoop (mapDelete c m1 key)).bind fun (m2, r) =>
              (assert m2 (r == some entry)).bind fun _ => .val ⟨{ s with map := m2 }, .notfound, evs, []⟩
          else if o.lowmem && decide (m1.count > count) then
            (autoEvict c m1 (c.hash24 key) now).bind fun (m2, ev2) =>
              .val ⟨{ s with map := m2 }, .inserted, evs ++ ev2 ++ [.inserted entry], []⟩
          else .val ⟨{ s with map := m1 }, .inserted, evs ++ [.inserted entry], []⟩

/-! ### Scans -/

/-- What a scan does with a live entry it is shown. -/
inductive Act where
  | cont | stop | delete | deleteStop
deriving DecidableEq, Repr

/-- State of a scan. -/
structure Scan where
  map : Tbl
  evs : List Ev
  seen : List Ent
  stopped : Bool
  pos : Nat

/-- The common loop of `iterop` (`/repo/src/pogocache.c:1680-1719`), `sweepop` (1913-1935) and
`entryiter` (1762-1778): `i` is the bucket index; a deletion leaves it unchanged (`i--; continue`). -/
def scanLoop (now : Int) (act : List Ent → Ent → Act) : Nat → Nat → Scan → Out Scan
  | 0, _, _ => .hang
  | fuel + 1, i, st =>
    if i < st.map.nbuckets then
      let b := st.map.buckets i
      if b.dib = 0 then scanLoop now act fuel (i + 1) st
      else if !b.ent.alive now then
        (ofLoop (delbkt st.map i)).bind fun m =>
          scanLoop now act fuel i { st with map := m, evs := st.evs ++ [.expired b.ent] }
      else
        let seen := st.seen ++ [b.ent]
        match act st.seen b.ent with
        | .cont => scanLoop now act fuel (i + 1) { st with seen }
        | .stop => .val { st with seen, stopped := true, pos := i + 1 }
        | .delete =>
          (ofLoop (delbkt st.map i)).bind fun m =>
            scanLoop now act fuel i { st with map := m, evs := st.evs ++ [.deleted b.ent], seen }
        | .deleteStop =>
          (ofLoop (delbkt st.map i)).bind fun m =>
            .val { st with map := m, evs := st.evs ++ [.deleted b.ent], seen, stopped := true, pos := i }
    else .val { st with pos := i }

/-- Enough fuel: every step moves on or deletes. -/
def scanFuel (m : Tbl) : Nat := m.nbuckets + m.count + 1

/-- `iterop`, `/repo/src/pogocache.c:1675-1723`.  A missing callback continues (line 1694). -/
def iterOp (c : Ctx) (mem : Mem) (now : Int) (cb : Option (List Ent → Ent → Act)) (s : Sh) : Out Res :=
  (scanLoop now (cb.getD fun _ _ => .cont) (scanFuel s.map) 0 ⟨s.map, [], [], false, 0⟩).bind fun st =>
    (ofLoop (tryShrink c st.map mem.tbl)).bind fun m =>
      .val ⟨{ s with map := m }, if st.stopped then .canceled else .finished, st.evs,
        if cb.isSome then st.seen else []⟩

/-- `sweepop`, `/repo/src/pogocache.c:1910-1940`: result, swept and kept. -/
def sweepOp (c : Ctx) (mem : Mem) (now : Int) (s : Sh) : Out (Res × Nat × Nat) :=
  (scanLoop now (fun _ _ => .cont) (scanFuel s.map) 0 ⟨s.map, [], [], false, 0⟩).bind fun st =>
    (ofLoop (tryShrink c st.map mem.tbl)).bind fun m =>
      .val (⟨{ s with map := m }, .finished, st.evs, []⟩, st.evs.length, st.seen.length)

/-- `entryiter`, `/repo/src/pogocache.c:1755-1782`: starts at `iter`, stops at the first live entry;
returns it and the new value of `*iter`. -/
def entryIter (now : Int) (iter : Nat) (s : Sh) : Out (Sh × List Ev × Option Ent × Nat) :=
  if s.map.count = 0 then .val (s, [], none, 0)
  else
    (scanLoop now (fun _ _ => .stop) (scanFuel s.map) iter ⟨s.map, [], [], false, 0⟩).bind fun st =>
      match st.seen with
      | e :: _ => .val ({ s with map := st.map }, st.evs, some e, st.pos)
      | [] => .val ({ s with map := st.map }, st.evs, none, 0)

/-- The notification loop of `clearop`, `/repo/src/pogocache.c:1979-1992`. -/
def clearEvs (m : Tbl) (now : Int) : List Ev :=
  (List.range m.nbuckets).filterMap fun i =>
    let b := m.buckets i
    if b.dib = 0 then none else some (if b.ent.alive now then .cleared b.ent else .expired b.ent)

/-- `clearop`, `/repo/src/pogocache.c:1976-2024`.  When the new table cannot be allocated the code
clears memory starting at the field `buckets` itself instead of the array it points to (line 2005),
which runs over the shard: undefined behaviour. -/
def clearOp (c : Ctx) (mem : Mem) (now : Int) (s : Sh) : Out Res :=
  let evs := clearEvs s.map now
  if mem.tbl then
    .val ⟨{ s with map := { mapInit c 64 with total := s.map.total, ovf := s.map.ovf } }, .finished, evs, []⟩
  else .ub

/-- `countop`, `/repo/src/pogocache.c:1817-1819`. -/
def countOp (s : Sh) : Nat := s.map.count

/-- `totalop`, `/repo/src/pogocache.c:1848-1850`. -/
def totalOp (s : Sh) : Nat := s.map.total

/-- `sizeop`, `/repo/src/pogocache.c:1880-1888`; `sizeof(struct shard)` 88, `sizeof(struct bucket)` 10. -/
def sizeOp (entriesonly : Bool) (s : Sh) : Nat :=
  add64 (if entriesonly then 0 else 88 + 10 * s.map.nbuckets) s.map.entsize

end Verif.Shard
