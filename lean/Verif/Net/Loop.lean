import Mathlib.Tactic.Common
import Mathlib.Logic.Function.Basic
import Verif.Basic
import Verif.Net.Cmap

/-!
C82, C83: the event loop of a worker thread, `/repo/src/net.c:564-940`, with what others do meanwhile: new connections are added to its queue of
events by other threads, and background threads finish.

One step handles one element of one of the queues (`qattachs`, `qreads`, `qins`, `qouts`, `qcloses`), so that the others can come in between.
Of a connection, the table and the heap are kept apart, as in the code: using a connection that has been freed is undefined behaviour here.
Connections are not given the same address again; the numbers of sockets are.

Left out: io_uring (`Verif.Net.Uring`), how bytes are written (`Verif.Net.Out`), the limit and TLS (`Verif.Net.Admit`, `Verif.Net.Tls`: here a
connection may be refused at any time), and failures of `pthread_create` and of `epoll_ctl`, except for those following from its contract.
-/

namespace Verif.Net.Loop

open Function (update)

/-- What epoll waits for, `/repo/src/net.c:153-211`: `EPOLLIN` or `EPOLLOUT`. -/
inductive Want where
  | read | write
deriving DecidableEq, Repr

/-- `struct net_conn`, `/repo/src/net.c:247-263`.  `bg`: `bgctx`, with whether the thread has finished; `stat`: one of the four counters. -/
structure Conn where
  fd : Nat
  closed : Bool
  out : Bytes
  bg : Option Bool
  stat : Nat
deriving DecidableEq, Repr

/-- What happens to a connection, in order; not in the code.  `wrote`: a reply is put to its buffer; `sent`: it is written to the socket;
`broken`: writing failed; `data`: bytes read are given to the handler; `counted`: it counts something. -/
inductive Ev where
  | opened (id : Nat)
  | read (id : Nat) (d : Bytes)
  | data (id : Nat) (d : Bytes)
  | wrote (id : Nat) (d : Bytes)
  | sent (id : Nat) (d : Bytes)
  | broken (id : Nat)
  | counted (id : Nat)
  | closed (id : Nat)
deriving DecidableEq, Repr

/-- Where the thread is: the functions called by `qthread`, `/repo/src/net.c:916-938`. -/
inductive Pc where
  | top | wait | accept | attach | read | process | write | close
deriving DecidableEq, Repr

/-- `struct qthreadctx`, `/repo/src/net.c:475-514`, the memory and what epoll knows.  Of each queue only the rest to be handled is kept: where an element is
added to a queue none of it has been handled, so that its length is the index of the element.
`sum`: `ctx->stat_…`, `glob`: what this thread has added to the global counter; `log` is not in the code. -/
structure S where
  pc : Pc
  heap : Nat → Option Conn
  table : Cmap.Map
  next : Nat
  reg : Nat → Option Want
  isopen : Nat → Bool
  nconns : Nat
  events : List Nat
  qattachs : List Nat
  qreads : List Nat
  qins : List (Nat × Bytes)
  qouts : List Nat
  qcloses : List Nat
  sum : Nat
  glob : Nat
  log : List Ev

/-- A step may go wrong by using memory that is not there, or by a failed assertion. -/
inductive Res where
  | ok (s : S)
  | ub
  | abort

/-- What a handler does with its connection, `/repo/src/net.c:281-353, 1259-1318`. -/
inductive Op where
  | write (d : Bytes)
  | close
  /-- `net_conn_bgwork`; `sent`: whether the buffer could be written. -/
  | bgwork (sent : Bool)
  /-- `net_stat_cmd_get_incr` and the like. -/
  | count
deriving DecidableEq, Repr

/-- What `read` returns. -/
inductive Rd where
  | data (d : Bytes)
  | again
  | stop
deriving DecidableEq, Repr

def Rd.bytes : Rd → Bytes
  | .data d => d
  | _ => []

/-- What comes from outside: the events, whether a new connection is admitted, what the handler does, whether writing succeeds, what is read. -/
structure Orc where
  events : List Nat
  admit : Bool
  ops : List Op
  sent : Bool
  rd : Rd

/-- `flush_conn`, `/repo/src/net.c:681-702`: either everything is written or the connection counts as closed. -/
def flush (id : Nat) (sent : Bool) (k : Conn) : Conn × List Ev :=
  if k.out = [] then (k, [])
  else if sent then ({ k with out := [] }, [.sent id k.out])
  else ({ k with out := [], closed := true }, [.broken id])

/-- The functions a handler calls; `none`: the assertion of `net_conn_bgwork`, `/repo/src/net.c:1279-1280`, fails. -/
def runOp (id : Nat) : Op → Conn × Option Want × List Ev → Option (Conn × Option Want × List Ev)
  | .write d, (k, w, l) => some ({ k with out := k.out ++ d }, w, l ++ [.wrote id d])
  | .close, (k, w, l) => some ({ k with closed := true }, w, l)
  | .count, (k, w, l) => some ({ k with stat := k.stat + 1 }, w, l ++ [.counted id])
  | .bgwork sent, (k, w, l) =>
    if k.bg ≠ none ∨ k.closed = true then some (k, w, l)
    else
      let x := flush id sent k
      if x.1.closed = true then some (x.1, w, l ++ x.2)
      else if w ≠ some .read then none
      else some ({ x.1 with bg := some false }, none, l ++ x.2)

/-- A handler: what becomes of the connection and of what epoll waits for. -/
def runOps (id : Nat) : List Op → Conn × Option Want × List Ev → Option (Conn × Option Want × List Ev)
  | [], x => some x
  | o :: os, x => (runOp id o x).bind (runOps id os)

section
variable (cap : Nat) (lst : Nat → Bool) (hash : Nat → Nat)

/-- The last lines of `qaccept`, `/repo/src/net.c:637-650`; the queues have `cap` places (`ctx->queuesize`, 905-913). -/
def sort (s : S) (id : Nat) (k : Conn) : Res :=
  if k.bg ≠ none then if s.qattachs.length < cap then .ok { s with qattachs := s.qattachs ++ [id] } else .ub
  else if k.out ≠ [] then if s.qouts.length < cap then .ok { s with qouts := s.qouts ++ [id] } else .ub
  else if k.closed = true then if s.qcloses.length < cap then .ok { s with qcloses := s.qcloses ++ [id] } else .ub
  else if s.qreads.length < cap then .ok { s with qreads := s.qreads ++ [id] } else .ub

/-- One round of the loop of `qaccept`, `/repo/src/net.c:577-651`.  What is accepted from a listening socket is given to some thread (`Env.accepted`). -/
def acceptStep (o : Orc) (s : S) (fd : Nat) (l : List Nat) : Res :=
  match Cmap.get hash s.table fd with
  | some c =>
    match s.heap c.id with
    | none => .ub
    | some k => sort cap { s with events := l } c.id k
  | none =>
    if lst fd = true then .ok { s with events := l }
    else if o.admit = false then .ok { s with events := l, isopen := update s.isopen fd false, reg := update s.reg fd none }
    else
      sort cap { s with events := l, heap := update s.heap s.next (some ⟨fd, false, [], none, 0⟩), table := Cmap.insert hash s.table ⟨fd, s.next⟩,
                        next := s.next + 1, nconns := s.nconns + 1, log := s.log ++ [.opened s.next] } s.next ⟨fd, false, [], none, 0⟩

/-- One round of the loop of `qattach`, `/repo/src/net.c:705-731`.  Freeing `bgctx` while its thread uses it is undefined. -/
def attachStep (o : Orc) (s : S) (id : Nat) (l : List Nat) : Res :=
  match s.heap id with
  | none => .ub
  | some k =>
    if k.bg ≠ some true then .ub
    else
      match runOps id o.ops (k, s.reg k.fd, []) with
      | none => .abort
      | some (k1, w, l1) =>
        if w ≠ some .write then .abort
        else
          let x := flush id o.sent { k1 with bg := none }
          let s := { s with qattachs := l, heap := update s.heap id (some x.1), reg := update s.reg k.fd (some .read), log := s.log ++ l1 ++ x.2 }
          if x.1.closed = true then if s.qcloses.length < cap then .ok { s with qcloses := s.qcloses ++ [id] } else .ub
          else if s.qreads.length < cap then .ok { s with qreads := s.qreads ++ [id] } else .ub

/-- One round of the loops of `qread`, `/repo/src/net.c:770-780`, with `handle_read` (653-679). -/
def readStep (o : Orc) (s : S) (id : Nat) (l : List Nat) : Res :=
  match s.heap id with
  | none => .ub
  | some k =>
    if k.out ≠ [] ∨ k.bg ≠ none then .abort
    else
      match o.rd with
      | .stop => if s.qcloses.length < cap then .ok { s with qreads := l, qcloses := s.qcloses ++ [id] } else .ub
      | r => if s.qins.length < cap then .ok { s with qreads := l, qins := s.qins ++ [(id, r.bytes)], log := s.log ++ [.read id r.bytes] } else .ub

/-- One round of the loop of `qprocess`, `/repo/src/net.c:788-805`, with `sumstats` (522-531). -/
def processStep (o : Orc) (s : S) (id : Nat) (d : Bytes) (l : List (Nat × Bytes)) : Res :=
  match s.heap id with
  | none => .ub
  | some k =>
    match runOps id o.ops (k, s.reg k.fd, [.data id d]) with
    | none => .abort
    | some (k1, w, l1) =>
      let s := { s with qins := l, heap := update s.heap id (some { k1 with stat := 0 }), reg := update s.reg k.fd w, log := s.log ++ l1,
                        sum := s.sum + k1.stat }
      if k1.bg ≠ none then .ok s
      else if k1.out ≠ [] then if s.qouts.length < cap then .ok { s with qouts := s.qouts ++ [id] } else .ub
      else if k1.closed = true then if s.qcloses.length < cap then .ok { s with qcloses := s.qcloses ++ [id] } else .ub
      else .ok s

/-- One round of the loops of `qwrite`, `/repo/src/net.c:848-855`. -/
def writeStep (o : Orc) (s : S) (id : Nat) (l : List Nat) : Res :=
  match s.heap id with
  | none => .ub
  | some k =>
    let x := flush id o.sent k
    let s := { s with qouts := l, heap := update s.heap id (some x.1), log := s.log ++ x.2 }
    if x.1.closed = true then if s.qcloses.length < cap then .ok { s with qcloses := s.qcloses ++ [id] } else .ub
    else .ok s

/-- One round of the loop of `qclose`, `/repo/src/net.c:864-878`, with `cmap_delete` (414-430), which follows the chain to its end if the connection is not
there; a connection whose background thread is running must not be freed. -/
def closeStep (s : S) (id : Nat) (l : List Nat) : Res :=
  match s.heap id with
  | none => .ub
  | some k =>
    if k.bg = some false then .ub
    else if (⟨k.fd, id⟩ : Cmap.Conn) ∉ s.table.buckets.getD (Cmap.idx hash s.table.buckets.length k.fd) [] then .ub
    else .ok { s with qcloses := l, heap := update s.heap id none, table := Cmap.delete hash s.table ⟨k.fd, id⟩, nconns := s.nconns - 1,
                      isopen := update s.isopen k.fd false, reg := update s.reg k.fd none, log := s.log ++ [.closed id] }

/-- The loop of `qthread`, `/repo/src/net.c:915-939`, with `sumstats_global` (534-547) and `qreset` (566-573). -/
def step (o : Orc) (s : S) : Res :=
  match s.pc with
  | .top => .ok { s with pc := .wait, glob := s.glob + s.sum, sum := 0 }
  | .wait => .ok { s with pc := .accept, events := o.events, qattachs := [], qreads := [], qins := [], qouts := [], qcloses := [] }
  | .accept => match s.events with
    | [] => .ok { s with pc := .attach }
    | fd :: l => acceptStep cap lst hash o s fd l
  | .attach => match s.qattachs with
    | [] => .ok { s with pc := .read }
    | id :: l => attachStep cap o s id l
  | .read => match s.qreads with
    | [] => .ok { s with pc := .process }
    | id :: l => readStep cap o s id l
  | .process => match s.qins with
    | [] => .ok { s with pc := .write }
    | (id, d) :: l => processStep cap o s id d l
  | .write => match s.qouts with
    | [] => .ok { s with pc := .close }
    | id :: l => writeStep cap o s id l
  | .close => match s.qcloses with
    | [] => .ok { s with pc := .top }
    | id :: l => closeStep hash s id l

/-- What others do. -/
inductive Env where
  /-- `addread(ctx->ctxs[idx].qfd, fd)` for a connection just accepted, by this thread or another, `/repo/src/net.c:584-616`. -/
  | accepted (fd : Nat)
  /-- The end of `bgwork`, `/repo/src/net.c:1244-1254`. -/
  | finished (id : Nat)

/-- The steps of others. -/
def envStep : Env → S → Res
  | .accepted fd, s => .ok { s with isopen := update s.isopen fd true, reg := update s.reg fd (some .read) }
  | .finished id, s =>
    match s.heap id with
    | none => .ub
    | some k =>
      if s.reg k.fd ≠ none then .abort
      else .ok { s with heap := update s.heap id (some { k with bg := some true }), reg := update s.reg k.fd (some .write) }

/-- A new thread: only the listening sockets, if any. -/
def new : S := ⟨.top, fun _ => none, Cmap.new, 0, fun fd => if lst fd = true then some .read else none, lst, 0, [], [], [], [], [], [], 0, 0, []⟩

/-- What the kernel and the handlers stick to.  `epoll_wait` returns at most `cap` events, each of another socket among those waited for; the end of background
work counts nothing (`bgflush_done` etc., `/repo/src/cmds.c`). -/
def Orc.Ok (o : Orc) (s : S) : Prop :=
  (s.pc = .wait → o.events.length ≤ cap ∧ o.events.Nodup ∧ ∀ fd ∈ o.events, s.reg fd ≠ none) ∧ (s.pc = .attach → Op.count ∉ o.ops)

/-- The kernel gives new connections numbers that are not in use; a background thread finishes once. -/
def Env.Ok (s : S) : Env → Prop
  | .accepted fd => s.isopen fd = false
  | .finished id => ∃ k, s.heap id = some k ∧ k.bg = some false

/-- The states of a thread. -/
inductive Reach : S → Prop
  | new : Reach (new lst)
  | step {s s'} (o : Orc) : Reach s → o.Ok cap s → step cap lst hash o s = .ok s' → Reach s'
  | env {s s'} (e : Env) : Reach s → e.Ok s → envStep e s = .ok s' → Reach s'

end

end Verif.Net.Loop
