import Verif.Basic

/-!
Model of the ownership of argument buffers, `/repo/src/args.c`, `/repo/src/buf.c`, and its use by the Postgres protocol.

Simplifications: contents of buffers are left out, only lengths, capacities and the identity of heap blocks are kept; the arrays of slots
themselves (`args->bufs`) are not tracked; statements and portals are kept in association lists instead of hash maps.
-/

namespace Verif.Args

/-- `struct buf`, `/repo/src/buf.h`: with a capacity of 0 the data belongs to someone else. -/
structure Slot where
  len : Nat
  cap : Nat
  block : Nat
deriving Repr, DecidableEq

/-- A slot of zeroes. -/
def Slot.zero : Slot := ⟨0, 0, 0⟩

/-- The heap: the blocks in use, and the number for the next one. -/
structure Heap where
  live : List Nat
  next : Nat
deriving Repr, DecidableEq

/-- `xmalloc`. -/
def Heap.alloc (h : Heap) : Nat × Heap := (h.next, ⟨h.next :: h.live, h.next + 1⟩)

/-- `xfree`; `none` if the block is not in use (a double free). -/
def Heap.free (h : Heap) (b : Nat) : Option Heap := if b ∈ h.live then some ⟨h.live.erase b, h.next⟩ else none

/-- The loop of `buf_ensure`, `/repo/src/buf.c:27-29`. -/
def grow (need : Nat) : Nat → Nat → Nat
  | 0, cap => cap
  | f + 1, cap => if need > cap then grow need f (cap * 2) else cap

/-- The new capacity, `/repo/src/buf.c:19-29`. -/
def newCap (cap need : Nat) : Nat := grow need need (if cap = 0 then 16 else cap * 2)

/-- `buf_append` with `buf_ensure`, `/repo/src/buf.c:17-41`; `none` if a block is used that is not in use any more. -/
def bufAppend (h : Heap) (s : Slot) (n : Nat) : Option (Heap × Slot) :=
  if n = 0 then some (h, s)
  else if s.len + n > s.cap then
    if s.cap = 0 then some (h.alloc.2, ⟨s.len + n, newCap s.cap (s.len + n), h.alloc.1⟩)
    else (h.free s.block).map fun h => (h.alloc.2, ⟨s.len + n, newCap s.cap (s.len + n), h.alloc.1⟩)
  else if s.block ∈ h.live then some (h, { s with len := s.len + n })
  else none

/-- `buf_clear`, `/repo/src/buf.c:51-58`. -/
def bufClear (h : Heap) (s : Slot) : Option Heap := if s.cap ≠ 0 then h.free s.block else some h

/-- `struct args`, `/repo/src/args.h`: the slots in use, the other slots of the array, and the flag. -/
structure Bufs where
  used : List Slot
  spare : List Slot
  zerocopy : Bool
deriving Repr, DecidableEq

/-- `struct args` set to zero. -/
def Bufs.empty : Bufs := ⟨[], [], false⟩

/-- The growth of the array, `/repo/src/args.c:51-56`. -/
def Bufs.ensure (x : Bufs) : Bufs :=
  match x.spare with
  | [] => { x with spare := List.replicate (if x.used.length = 0 then 4 else x.used.length) Slot.zero }
  | _ :: _ => x

/-- `args_append`, `/repo/src/args.c:46-71`. -/
def append (h : Heap) (x : Bufs) (zc : Bool) (n : Nat) : Option (Heap × Bufs) :=
  let flag := if x.used.length = 0 then zc else x.zerocopy && zc
  match x.ensure.spare with
  | [] => none
  | s :: spare =>
    if zc then (bufClear h s).map fun h => (h, ⟨x.used ++ [⟨n, 0, 0⟩], spare, flag⟩)
    else (bufAppend h { s with len := 0 } n).map fun (h, s) => (h, ⟨x.used ++ [s], spare, flag⟩)

/-- The loop of `args_clear`, `/repo/src/args.c:75-77`. -/
def clearSlots (h : Heap) : List Slot → Option Heap
  | [] => some h
  | s :: ss => (bufClear h s).bind fun h => clearSlots h ss

/-- `args_clear`, `/repo/src/args.c:73-80`. -/
def clear (h : Heap) (x : Bufs) : Option (Heap × Bufs) :=
  if x.zerocopy then some (h, ⟨[], x.used ++ x.spare, x.zerocopy⟩)
  else (clearSlots h x.used).map fun h => (h, ⟨[], x.used.map (fun _ => Slot.zero) ++ x.spare, x.zerocopy⟩)

/-- `args_free`, `/repo/src/args.c:82-85`, without the array. -/
def free (h : Heap) (x : Bufs) : Option Heap := (clear h x).map (·.1)

/-- `args_remove_first`, `/repo/src/args.c:100-109`: the slots move down by one; the last one stays where it is too. -/
def removeFirst (h : Heap) (x : Bufs) : Option (Heap × Bufs) :=
  match x.used with
  | [] => some (h, x)
  | s :: ss => (bufClear h s).map fun h => (h, { x with used := ss, spare := ss.getLast?.getD Slot.zero :: x.spare })

/-- `buf_append` to the last argument, `/repo/src/postgres.c:1013-1015`; `none` also for the failed assertion. -/
def appendLast (h : Heap) (x : Bufs) (n : Nat) : Option (Heap × Bufs) :=
  match x.used.getLast? with
  | none => none
  | some s => (bufAppend h s n).map fun (h, s) => (h, { x with used := x.used.dropLast ++ [s] })

/-! ### A Postgres connection -/

/-- The arguments of a connection: `conn->args`, `pg->targs`, and those of the statements and portals. -/
structure St where
  heap : Heap
  args : Bufs
  targs : Bufs
  stmts : List (Bytes × Bufs)
  portals : List (Bytes × Bufs)

/-- A new connection. -/
def St.new : St := ⟨⟨[], 0⟩, Bufs.empty, Bufs.empty, [], []⟩

/-- A number of `args_append`s: for each whether without a copy, and its length. -/
def appends (h : Heap) (x : Bufs) : List (Bool × Nat) → Option (Heap × Bufs)
  | [] => some (h, x)
  | (zc, n) :: ws => (append h x zc n).bind fun (h, x) => appends h x ws

/-- The loop of `parseE`, `/repo/src/postgres.c:977-1019`: for each piece whether it is joined to the one before, and its length. -/
def pieces (h : Heap) (x : Bufs) : List (Bool × Nat) → Option (Heap × Bufs)
  | [] => some (h, x)
  | (join, n) :: ws => (if join then appendLast h x n else append h x false n).bind fun (h, x) => pieces h x ws

/-- `hashmap_set`: the new map, and the old value if there was one. -/
def mapSet (m : List (Bytes × Bufs)) (name : Bytes) (x : Bufs) : List (Bytes × Bufs) × Option Bufs :=
  ((name, x) :: m.filter (fun e => e.1 ≠ name), (m.find? (fun e => e.1 = name)).map (·.2))

/-- Requests of a client, as far as argument buffers are concerned. -/
inductive Req where
  /-- A query, with or without type as first word, `/repo/src/postgres.c:690-715, 1516-1568`. -/
  | query (ws : List (Bool × Nat)) (typed : Bool)
  /-- A query that is refused. -/
  | refused (ws : List (Bool × Nat))
  /-- A statement is prepared, `/repo/src/postgres.c:717-760`. -/
  | parse (name : Bytes) (ws : List (Bool × Nat))
  /-- Values are bound, `/repo/src/postgres.c:887-931`. -/
  | bind (name : Bytes) (lens : List Nat)
  /-- A statement is executed, with or without type as first word, `/repo/src/postgres.c:975-1028, 1516-1568`. -/
  | execute (ps : List (Bool × Nat)) (typed : Bool)
  /-- An execution that stops at an internal error, `/repo/src/postgres.c:1029-1033`. -/
  | stopped (ps : List (Bool × Nat))

/-- The removal of the type in `pg_precommand`, `/repo/src/postgres.c:1555`. -/
def dropType (typed : Bool) (h : Heap) (x : Bufs) : Option (Heap × Bufs) := if typed then removeFirst h x else some (h, x)

/-- One request.  Every one starts with the `args_clear` in `parse_command`, `/repo/src/parse.c:109`. -/
def step (s : St) (r : Req) : Option St :=
  (clear s.heap s.args).bind fun (h, a) =>
    match r with
    | .query ws typed =>
      (appends h a ws).bind fun (h, a) => (dropType typed h a).map fun (h, a) => { s with heap := h, args := a }
    | .refused ws =>
      (appends h a ws).bind fun (h, a) => (clear h a).map fun (h, a) => { s with heap := h, args := a }
    | .parse name ws =>
      (appends h a ws).bind fun (h, a) =>
        (appends h Bufs.empty (ws.map fun w => (false, w.2))).bind fun (h, x) =>
          (clear h a).bind fun (h, a) =>
            let (m, old) := mapSet s.stmts name x
            ((old.map fun o => free h o).getD (some h)).map fun h => { s with heap := h, args := a, stmts := m }
    | .bind name lens =>
      (clear h s.targs).bind fun (h, t) =>
        (appends h t (lens.map fun n => (false, n))).bind fun (h, t) =>
          let (m, old) := mapSet s.portals name t
          ((old.map fun o => free h o).getD (some h)).map fun h => { s with heap := h, args := a, targs := Bufs.empty, portals := m }
    | .execute ps typed =>
      (clear h s.targs).bind fun (h, t) =>
        (pieces h t ps).bind fun (h, t) => (dropType typed h t).map fun (h, t) => { s with heap := h, args := t, targs := a }
    | .stopped ps =>
      (clear h s.targs).bind fun (h, t) => (pieces h t ps).map fun (h, t) => { s with heap := h, args := a, targs := t }

/-- A sequence of requests. -/
def steps (s : St) : List Req → Option St
  | [] => some s
  | r :: rs => (step s r).bind fun s => steps s rs

/-- `args_free` of the statements or portals. -/
def freeAll (h : Heap) : List (Bytes × Bufs) → Option Heap
  | [] => some h
  | e :: m => (free h e.2).bind fun h => freeAll h m

/-- The end of a connection: `evclosed` and `pg_free`, `/repo/src/conn.c:70-77`, `/repo/src/postgres.c:208-222`. -/
def close (s : St) : Option Heap :=
  (free s.heap s.args).bind fun h => (freeAll h s.stmts).bind fun h => (freeAll h s.portals).bind fun h => free h s.targs

end Verif.Args
