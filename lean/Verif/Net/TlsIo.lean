import Mathlib.Tactic.Common
import Mathlib.Logic.Function.Basic
import Verif.Basic

/-!
C87, C88: reading and writing over TLS, `/repo/src/tls.c:83-170`, by the event loop of one thread, `/repo/src/net.c:573-651, 653-702, 770-780, 862-880`.

OpenSSL is described by what its manual says.  `SSL_read_ex` returns bytes of one record only, at most as many as asked for, and keeps the rest of the record; it takes a
new record from the socket only when nothing is left of the last one.  A record has at most 16384 bytes.  An operation that fails adds to the error queue of the thread,
and `SSL_get_error` looks at that queue before it looks at the connection ("the current thread's error queue must be empty before the TLS/SSL I/O operation is attempted, or
SSL_get_error() will not work reliably").  A handshake begins by clearing the queue.  `SSL_shutdown` fails during a handshake, and may fail after a failed operation.

Left out: the bytes of replies (`Verif.Net.Out`), the handler, renegotiation, and that `write` and `read` on the socket itself may be interrupted.
-/

namespace Verif.Net.TlsIo

open Function (update)

/-- `PACKETSIZE-1`, `/repo/src/net.c:53,773`. -/
def room : Nat := 16383

/-- The most bytes of a record. -/
def maxRecord : Nat := 16384

/-- `SSL` and its socket.  `hs`: the handshake is not finished; `cur`: the rest of the record taken last; `recs`: whole records in the socket; `part`: a part of one behind them;
`eof`, `bad`: the client's end of the connection, or something wrong (a damaged record, a socket closed without notice), behind all of that. -/
structure Ssl where
  hs : Bool
  cur : Bytes
  recs : List Bytes
  part : Bool
  eof : Bool
  bad : Bool
deriving DecidableEq, Repr

/-- What an operation of OpenSSL comes to. -/
inductive Out where
  | data (d : Bytes)
  | want
  | zero
  | fatal
deriving DecidableEq, Repr

/-- Taking records from the socket until one has bytes (others carry messages of the protocol). -/
def take : List Bytes → Option (Bytes × List Bytes)
  | [] => none
  | r :: rs => if r = [] then take rs else some (r, rs)

/-- `SSL_read_ex` for `len` bytes. -/
def sslRead (len : Nat) (c : Ssl) : Out × Ssl :=
  if c.cur ≠ [] then (.data (c.cur.take len), { c with cur := c.cur.drop len })
  else
    match take c.recs with
    | some (r, rs) => (.data (r.take len), { c with cur := r.drop len, recs := rs, hs := false })
    | none =>
      let c := { c with recs := [], hs := c.hs && decide (c.recs = []) }
      if c.bad then (.fatal, c) else if c.eof then (.zero, c) else (.want, { c with part := false })

/-- `SSL_get_error` after an operation that did not succeed; `queue`: the error queue of the thread is not empty. -/
inductive Err where
  | zeroReturn | wantReadWrite | ssl
deriving DecidableEq, Repr

/-- `SSL_get_error`. -/
def getError (queue : Bool) : Out → Err
  | .fatal => .ssl
  | .want => if queue then .ssl else .wantReadWrite
  | _ => if queue then .ssl else .zeroReturn

/-- What `tls_read` and `tls_write` return: bytes, 0, or -1 with `EAGAIN` or `EIO`. -/
inductive Ret where
  | data (d : Bytes)
  | zero | again | io
deriving DecidableEq, Repr

/-- `tls_read`, `/repo/src/tls.c:149-170`, and `tls_write`, `/repo/src/tls.c:126-147`, behind the call of OpenSSL. -/
def classify (queue : Bool) : Out → Ret
  | .data d => .data d
  | o =>
    match getError queue o with
    | .zeroReturn => .zero
    | .wantReadWrite => .again
    | .ssl => .io

/-- Whether epoll reports the socket. -/
def Ssl.readable (c : Ssl) : Bool := decide (c.recs ≠ []) || c.part || c.eof || c.bad

/-- The thread.  Not in the code: `sent`, the bytes in whole records from each client; `got`, the bytes given to the handler; `closed`; `reason`: the client ended the connection or broke
it, writing to it failed, or the handler closed it; `failed`: an operation on some connection failed since the queue was cleared last. -/
structure T where
  queue : Bool
  conn : Nat → Option Ssl
  sent : Nat → Bytes
  got : Nat → Bytes
  closed : Nat → Bool
  reason : Nat → Bool
  failed : Bool

/-- What happens: clients send; the thread handles events. -/
inductive Act where
  /-- The rest of a record arrives. -/
  | record (i : Nat) (d : Bytes)
  | part (i : Nat)
  | eof (i : Nat)
  | bad (i : Nat)
  /-- The first event of a socket: `tls_accept`, `/repo/src/tls.c:83-113`.  `o`: what `SSL_accept` comes to. -/
  | accept (i : Nat) (o : Out)
  /-- An event; `e`: whether `SSL_shutdown` fails, if it comes to closing. -/
  | event (i : Nat) (e : Bool)
  /-- A reply is written; `o`: what `SSL_write_ex` comes to, each time it is called. -/
  | reply (i : Nat) (os : List Out) (e : Bool)
  /-- The handler closes the connection. -/
  | quit (i : Nat) (e : Bool)

/-- `tls_close`, `/repo/src/tls.c:115-124`, called by `qclose`.  `SSL_shutdown` may fail in the middle of a handshake or after a failure. -/
def close (t : T) (i : Nat) (c : Ssl) (e : Bool) : T :=
  { t with conn := update t.conn i none, closed := update t.closed i true, queue := t.queue || (e && (c.hs || c.bad)), failed := t.failed || (e && (c.hs || c.bad)) }

/-- `handle_read`, `/repo/src/net.c:653-679`: with `EAGAIN` the handler is called without bytes. -/
def handleRead (t : T) (i : Nat) (c : Ssl) (e : Bool) : Ret → T
  | .data d => { t with conn := update t.conn i (some c), got := update t.got i (t.got i ++ d) }
  | .again => { t with conn := update t.conn i (some c) }
  | .zero => close t i c e
  | .io => close t i c e

/-- `flush_conn`, `/repo/src/net.c:681-702`: repeated until everything is written; `true`: the connection counts as closed afterwards.  `none`: does not end, since writing comes to nothing. -/
def flush (queue : Bool) : List Out → Option (Bool × Bool)
  | [] => none
  | o :: os =>
    match classify queue o with
    | .data _ => some (false, queue)
    | .again => flush queue os
    | .zero => none
    | .io => some (true, queue || decide (o = .fatal))

/-- One step; `none` if it is not possible. -/
def step (t : T) : Act → Option T
  | .record i d =>
    (t.conn i).bind fun c => if c.eof || c.bad || decide (d.length > maxRecord) then none
      else some { t with conn := update t.conn i (some { c with recs := c.recs ++ [d], part := false }), sent := update t.sent i (t.sent i ++ d) }
  | .part i => (t.conn i).bind fun c => if c.eof || c.bad then none else some { t with conn := update t.conn i (some { c with part := true }) }
  | .eof i => (t.conn i).bind fun c => if c.eof || c.bad then none else some { t with conn := update t.conn i (some { c with eof := true }), reason := update t.reason i true }
  | .bad i => (t.conn i).bind fun c => if c.eof || c.bad then none else some { t with conn := update t.conn i (some { c with bad := true }), reason := update t.reason i true }
  | .accept i o =>
    if (t.conn i).isSome || t.closed i then none
    else
      match o with
      -- the handshake clears the queue; `ERR_print_errors_fp` does, too
      | .fatal => some { t with queue := false, failed := false, closed := update t.closed i true, reason := update t.reason i true }
      | .want => some { t with queue := false, failed := false, conn := update t.conn i (some ⟨true, [], [], false, false, false⟩) }
      | _ => some { t with queue := false, failed := false, conn := update t.conn i (some ⟨false, [], [], false, false, false⟩) }
  | .event i e =>
    (t.conn i).bind fun c =>
      if c.readable then
        let queue := if c.hs then false else t.queue
        let x := sslRead room c
        let queue' := queue || decide (x.1 = .fatal)
        some (handleRead { t with queue := queue', failed := (if c.hs then false else t.failed) || decide (x.1 = .fatal) } i x.2 e (classify queue x.1))
      else none
  | .reply i os e =>
    (t.conn i).bind fun c => (flush t.queue os).map fun x =>
      let t := { t with queue := x.2, failed := t.failed || decide (.fatal ∈ os), reason := if .fatal ∈ os then update t.reason i true else t.reason }
      if x.1 then close t i c e else t
  | .quit i e => (t.conn i).map fun c => close { t with reason := update t.reason i true } i c e

/-- A new thread. -/
def new : T := ⟨false, fun _ => none, fun _ => [], fun _ => [], fun _ => false, fun _ => false, false⟩

/-- The record in a step has at most `m` bytes. -/
def Act.Short (m : Nat) : Act → Prop
  | .record _ d => d.length ≤ m
  | _ => True

/-- The states of the thread, if records have at most `m` bytes. -/
inductive Reach (m : Nat) : T → Prop
  | new : Reach m new
  | step {t t'} (a : Act) : Reach m t → a.Short m → step t a = some t' → Reach m t'

/-! ### Proofs: bytes -/

theorem take_some {l : List Bytes} {r : Bytes} {rs : List Bytes} (h : take l = some (r, rs)) : l.flatten = r ++ rs.flatten ∧ r ≠ [] ∧ r ∈ l ∧ ∀ x ∈ rs, x ∈ l := by
  induction l with
  | nil => simp [take] at h
  | cons a l ih =>
    rw [take] at h
    split at h
    · rename_i ha
      obtain ⟨h1, h2, h3, h4⟩ := ih h
      exact ⟨by simp [ha, h1], h2, by simp [h3], fun x hx => by simp [h4 x hx]⟩
    · rename_i ha
      simp only [Option.some.injEq, Prod.mk.injEq] at h
      obtain ⟨rfl, rfl⟩ := h
      exact ⟨by simp, ha, by simp, fun x hx => by simp [hx]⟩

theorem take_none {l : List Bytes} (h : take l = none) : l.flatten = [] := by
  induction l with
  | nil => rfl
  | cons a l ih =>
    rw [take] at h
    split at h
    · rename_i ha; simp [ha, ih h]
    · simp at h

/-- Bytes of an answer. -/
def Out.bytes : Out → Bytes
  | .data d => d
  | _ => []

theorem sslRead_bytes (len : Nat) (c : Ssl) : c.cur ++ c.recs.flatten = (sslRead len c).1.bytes ++ ((sslRead len c).2.cur ++ (sslRead len c).2.recs.flatten) := by
  unfold sslRead
  split
  · rw [Out.bytes, ← List.append_assoc, List.take_append_drop]
  · rename_i hc
    simp only [ne_eq, not_not] at hc
    split
    · rename_i r rs h
      rw [hc, (take_some h).1, Out.bytes, List.nil_append, ← List.append_assoc, List.take_append_drop]
    · rename_i h
      rw [hc, take_none h]
      simp only []
      split
      · simp [Out.bytes]
      · split <;> simp [Out.bytes]

/-- The invariant about bytes; `m` bounds the length of records, and `m - room` what is left of one. -/
structure BytesInv (m : Nat) (t : T) : Prop where
  sum : ∀ i c, t.conn i = some c → t.sent i = t.got i ++ (c.cur ++ c.recs.flatten)
  recs : ∀ i c, t.conn i = some c → ∀ d ∈ c.recs, d.length ≤ m
  cur : ∀ i c, t.conn i = some c → c.cur.length ≤ m - room
  fresh : ∀ i, t.conn i = none → t.closed i = false → t.sent i = [] ∧ t.got i = []
  pre : ∀ i, t.got i <+: t.sent i

theorem sslRead_cur {m : Nat} {c : Ssl} (h1 : ∀ d ∈ c.recs, d.length ≤ m) (h2 : c.cur.length ≤ m - room) : (sslRead room c).2.cur.length ≤ m - room := by
  unfold sslRead
  split
  · rw [List.length_drop]; omega
  · split
    · rename_i r rs h
      have := h1 r (take_some h).2.2.1
      rw [List.length_drop]; omega
    · simp only []
      split
      · exact h2
      · split <;> exact h2

theorem sslRead_recs (len : Nat) (c : Ssl) : ∀ d ∈ (sslRead len c).2.recs, d ∈ c.recs := by
  unfold sslRead
  split
  · exact fun d hd => hd
  · split
    · rename_i r rs h
      exact (take_some h).2.2.2
    · simp only []
      split
      · simp
      · split <;> simp

/-- Something happens to one connection that is kept. -/
theorem BytesInv.keep {m : Nat} {t t' : T} (h : BytesInv m t) {i : Nat} {c c' : Ssl} (hc : t.conn i = some c) (h1 : t'.conn = update t.conn i (some c')) {a b : Bytes}
    (h2 : t'.sent = update t.sent i (t.sent i ++ a)) (h3 : t'.got = update t.got i (t.got i ++ b)) (h4 : t'.closed = t.closed)
    (h5 : c.cur ++ c.recs.flatten ++ a = b ++ (c'.cur ++ c'.recs.flatten)) (h6 : ∀ d ∈ c'.recs, d.length ≤ m) (h7 : c'.cur.length ≤ m - room) : BytesInv m t' := by
  have hs : t.sent i ++ a = t.got i ++ b ++ (c'.cur ++ c'.recs.flatten) := by
    rw [h.sum i c hc, List.append_assoc, h5, List.append_assoc]
  refine ⟨fun j k hk => ?_, fun j k hk => ?_, fun j k hk => ?_, fun j hj hcl => ?_, fun j => ?_⟩
  all_goals by_cases hj' : j = i
  · subst hj'
    rw [h1, Function.update_self] at hk
    cases hk
    rw [h2, h3, Function.update_self, Function.update_self, hs]
  · rw [h1, Function.update_of_ne hj'] at hk
    rw [h2, h3, Function.update_of_ne hj', Function.update_of_ne hj', h.sum j k hk]
  · subst hj'
    rw [h1, Function.update_self] at hk
    cases hk; exact h6
  · rw [h1, Function.update_of_ne hj'] at hk
    exact h.recs j k hk
  · subst hj'
    rw [h1, Function.update_self] at hk
    cases hk; exact h7
  · rw [h1, Function.update_of_ne hj'] at hk
    exact h.cur j k hk
  · subst hj'
    rw [h1, Function.update_self] at hj
    cases hj
  · rw [h1, Function.update_of_ne hj'] at hj
    rw [h4] at hcl
    rw [h2, h3, Function.update_of_ne hj', Function.update_of_ne hj']
    exact h.fresh j hj hcl
  · subst hj'
    rw [h2, h3, Function.update_self, Function.update_self, hs]
    exact ⟨_, rfl⟩
  · rw [h2, h3, Function.update_of_ne hj', Function.update_of_ne hj']
    exact h.pre j

/-- A connection goes. -/
theorem BytesInv.gone {m : Nat} {t t' : T} (h : BytesInv m t) {i : Nat} (h1 : ∀ j, j ≠ i → t'.conn j = t.conn j) (h1' : t'.conn i = none) (h2 : t'.sent = t.sent) (h3 : t'.got = t.got)
    (h4 : t'.closed = update t.closed i true) : BytesInv m t' := by
  refine ⟨fun j k hk => ?_, fun j k hk => ?_, fun j k hk => ?_, fun j hj hcl => ?_, fun j => ?_⟩
  all_goals by_cases hj' : j = i
  · subst hj'; rw [h1'] at hk; cases hk
  · rw [h2, h3]; exact h.sum j k (by rw [← h1 j hj', hk])
  · subst hj'; rw [h1'] at hk; cases hk
  · exact h.recs j k (by rw [← h1 j hj', hk])
  · subst hj'; rw [h1'] at hk; cases hk
  · exact h.cur j k (by rw [← h1 j hj', hk])
  · subst hj'; simp [h4] at hcl
  · rw [h4, Function.update_of_ne hj'] at hcl
    rw [h2, h3]; exact h.fresh j (by rw [← h1 j hj', hj]) hcl
  · rw [h2, h3]; exact h.pre j
  · rw [h2, h3]; exact h.pre j

theorem BytesInv.same {m : Nat} {t t' : T} (h : BytesInv m t) (h1 : t'.conn = t.conn) (h2 : t'.sent = t.sent) (h3 : t'.got = t.got) (h4 : t'.closed = t.closed) : BytesInv m t' :=
  ⟨fun i c => by rw [h1, h2, h3]; exact h.sum i c, fun i c => by rw [h1]; exact h.recs i c, fun i c => by rw [h1]; exact h.cur i c,
   fun i => by rw [h1, h2, h3, h4]; exact h.fresh i, fun i => by rw [h2, h3]; exact h.pre i⟩

theorem BytesInv.born {m : Nat} {t t' : T} (h : BytesInv m t) {i : Nat} {b : Bool} (hn : t.conn i = none) (hcl : t.closed i = false)
    (h1 : t'.conn = update t.conn i (some ⟨b, [], [], false, false, false⟩)) (h2 : t'.sent = t.sent) (h3 : t'.got = t.got) (h4 : t'.closed = t.closed) : BytesInv m t' := by
  obtain ⟨hs, hg⟩ := h.fresh i hn hcl
  refine ⟨fun j k hk => ?_, fun j k hk => ?_, fun j k hk => ?_, fun j hj hc => ?_, fun j => by rw [h2, h3]; exact h.pre j⟩
  all_goals by_cases hj' : j = i
  · subst hj'
    rw [h1, Function.update_self] at hk
    cases hk
    rw [h2, h3, hs, hg]; rfl
  · rw [h1, Function.update_of_ne hj'] at hk
    rw [h2, h3]; exact h.sum j k hk
  · subst hj'
    rw [h1, Function.update_self] at hk
    cases hk; simp
  · rw [h1, Function.update_of_ne hj'] at hk
    exact h.recs j k hk
  · subst hj'
    rw [h1, Function.update_self] at hk
    cases hk; simp
  · rw [h1, Function.update_of_ne hj'] at hk
    exact h.cur j k hk
  · subst hj'
    rw [h1, Function.update_self] at hj
    cases hj
  · rw [h1, Function.update_of_ne hj'] at hj
    rw [h4] at hc
    rw [h2, h3]; exact h.fresh j hj hc

theorem step_bytes {m : Nat} {t t' : T} (h : BytesInv m t) {a : Act} (ha : a.Short m) (he : step t a = some t') : BytesInv m t' := by
  cases a with
  | record i d =>
    simp only [step, Option.bind_eq_some_iff] at he
    obtain ⟨c, hc, he⟩ := he
    split at he
    · cases he
    · cases he
      refine h.keep hc rfl rfl (b := []) (by simp) rfl (by simp) ?_ (h.cur i c hc)
      intro x hx
      rcases List.mem_append.1 hx with hx | hx
      · exact h.recs i c hc x hx
      · rw [List.mem_singleton.1 hx]; exact ha
  | part i =>
    simp only [step, Option.bind_eq_some_iff] at he
    obtain ⟨c, hc, he⟩ := he
    split at he
    · cases he
    · cases he
      exact h.keep hc rfl (a := []) (b := []) (by simp) (by simp) rfl (by simp) (h.recs i c hc) (h.cur i c hc)
  | eof i =>
    simp only [step, Option.bind_eq_some_iff] at he
    obtain ⟨c, hc, he⟩ := he
    split at he
    · cases he
    · cases he
      exact h.keep hc rfl (a := []) (b := []) (by simp) (by simp) rfl (by simp) (h.recs i c hc) (h.cur i c hc)
  | bad i =>
    simp only [step, Option.bind_eq_some_iff] at he
    obtain ⟨c, hc, he⟩ := he
    split at he
    · cases he
    · cases he
      exact h.keep hc rfl (a := []) (b := []) (by simp) (by simp) rfl (by simp) (h.recs i c hc) (h.cur i c hc)
  | accept i o =>
    simp only [step] at he
    split at he
    · cases he
    · rename_i hn
      simp only [Bool.or_eq_true, not_or, Bool.not_eq_true, Option.isSome_eq_false_iff, Option.isNone_iff_eq_none] at hn
      split at he
      · cases he
        exact h.gone (i := i) (fun _ _ => rfl) hn.1 rfl rfl rfl
      · cases he; exact h.born hn.1 hn.2 rfl rfl rfl rfl
      · cases he; exact h.born hn.1 hn.2 rfl rfl rfl rfl
  | event i e =>
    simp only [step, Option.bind_eq_some_iff] at he
    obtain ⟨c, hc, he⟩ := he
    split at he
    · simp only [Option.some.injEq] at he
      have hb := sslRead_bytes room c
      have h6 : ∀ d ∈ (sslRead room c).2.recs, d.length ≤ m := fun d hd => h.recs i c hc d (sslRead_recs room c d hd)
      have h7 := sslRead_cur (h.recs i c hc) (h.cur i c hc)
      subst he
      generalize hx : sslRead room c = x at hb h6 h7 ⊢
      generalize (if c.hs = true then false else t.queue) = q
      cases hr : classify q x.1 with
      | data d =>
        have : x.1 = .data d := by
          revert hr
          cases x.1 <;> simp [classify, getError] <;> cases q <;> simp
        rw [this] at hb
        exact h.keep hc rfl (a := []) (b := d) (by simp [handleRead]) rfl rfl (by simpa [Out.bytes] using hb) h6 h7
      | again =>
        have : x.1 = .want := by
          revert hr
          cases x.1 <;> simp [classify, getError] <;> cases q <;> simp
        rw [this] at hb
        exact h.keep hc rfl (a := []) (b := []) (by simp [handleRead]) (by simp [handleRead]) rfl (by simpa [Out.bytes] using hb) h6 h7
      | zero => exact h.gone (i := i) (fun j hj => by simp [handleRead, close, Function.update_of_ne hj]) (by simp [handleRead, close]) rfl rfl rfl
      | io => exact h.gone (i := i) (fun j hj => by simp [handleRead, close, Function.update_of_ne hj]) (by simp [handleRead, close]) rfl rfl rfl
    · cases he
  | reply i os e =>
    simp only [step, Option.bind_eq_some_iff, Option.map_eq_some_iff] at he
    obtain ⟨c, hc, x, hx, rfl⟩ := he
    split
    · exact h.gone (i := i) (fun j hj => by simp [close, Function.update_of_ne hj]) (by simp [close]) rfl rfl rfl
    · exact h.same rfl rfl rfl rfl
  | quit i e =>
    simp only [step, Option.map_eq_some_iff] at he
    obtain ⟨c, hc, rfl⟩ := he
    exact h.gone (i := i) (fun j hj => by simp [close, Function.update_of_ne hj]) (by simp [close]) rfl rfl rfl

theorem reach_bytes {m : Nat} {t : T} (h : Reach m t) : BytesInv m t := by
  induction h with
  | new => exact ⟨by simp [new], by simp [new], by simp [new], by simp [new], by simp [new]⟩
  | step a hr ha he ih => exact step_bytes ih ha he

/-- **C87**: over TLS, what the handler gets is the beginning of what the client sent, whatever happens on this connection or another one. -/
theorem in_order {t : T} (h : Reach maxRecord t) (i : Nat) : t.got i <+: t.sent i := (reach_bytes h).pre i

/-- **C87**, in part: if no record has more than 16383 bytes, everything sent has been handled when the thread waits for more.  (The full claim allows records of 16384 bytes.) -/
theorem all_handled_partial {t : T} (h : Reach room t) {i : Nat} {c : Ssl} (hc : t.conn i = some c) (hw : c.readable = false) : t.got i = t.sent i := by
  have hb := reach_bytes h
  have h1 := hb.sum i c hc
  have h2 := hb.cur i c hc
  simp only [Ssl.readable, Bool.or_eq_false_iff, decide_eq_false_iff_not, ne_eq, not_not] at hw
  have h3 : c.cur = [] := List.eq_nil_of_length_eq_zero (by omega)
  rw [h1, h3, hw.1.1.1]
  simp

/-- **C87**: with records of any allowed length, at most the last byte is missing. -/
theorem all_but_one_handled {t : T} (h : Reach maxRecord t) {i : Nat} {c : Ssl} (hc : t.conn i = some c) (hw : c.readable = false) :
    ∃ r, t.sent i = t.got i ++ r ∧ r.length ≤ 1 := by
  have hb := reach_bytes h
  have h1 := hb.sum i c hc
  have h2 := hb.cur i c hc
  simp only [Ssl.readable, Bool.or_eq_false_iff, decide_eq_false_iff_not, ne_eq, not_not] at hw
  refine ⟨c.cur, by rw [h1, hw.1.1.1]; simp, ?_⟩
  simpa [maxRecord, room] using h2

/-- What the client of a connection does. -/
def Act.Client (i : Nat) : Act → Prop
  | .record j _ => j = i
  | .part j => j = i
  | .eof j => j = i
  | .bad j => j = i
  | _ => False

/-- Until the client sends more, nothing happens to a connection that epoll does not report: nothing is given to the handler. -/
theorem waits {t t' : T} {i : Nat} {c : Ssl} (hc : t.conn i = some c) (hw : c.readable = false) {a : Act} (ha : ¬ a.Client i) (he : step t a = some t') :
    t'.got i = t.got i ∧ t'.sent i = t.sent i ∧ (t'.conn i = some c ∨ t'.conn i = none) := by
  cases a with
  | record j d =>
    simp only [step, Option.bind_eq_some_iff] at he
    obtain ⟨k, hk, he⟩ := he
    have hj : i ≠ j := fun h => ha h.symm
    split at he
    · cases he
    · cases he; simp [Function.update_of_ne hj, hc]
  | part j =>
    simp only [step, Option.bind_eq_some_iff] at he
    obtain ⟨k, hk, he⟩ := he
    have hj : i ≠ j := fun h => ha h.symm
    split at he
    · cases he
    · cases he; simp [Function.update_of_ne hj, hc]
  | eof j =>
    simp only [step, Option.bind_eq_some_iff] at he
    obtain ⟨k, hk, he⟩ := he
    have hj : i ≠ j := fun h => ha h.symm
    split at he
    · cases he
    · cases he; simp [Function.update_of_ne hj, hc]
  | bad j =>
    simp only [step, Option.bind_eq_some_iff] at he
    obtain ⟨k, hk, he⟩ := he
    have hj : i ≠ j := fun h => ha h.symm
    split at he
    · cases he
    · cases he; simp [Function.update_of_ne hj, hc]
  | accept j o =>
    simp only [step] at he
    split at he
    · cases he
    · rename_i hn
      have hj : i ≠ j := by
        rintro rfl; simp [hc] at hn
      split at he <;> (cases he; simp [Function.update_of_ne hj, hc])
  | event j e =>
    simp only [step, Option.bind_eq_some_iff] at he
    obtain ⟨k, hk, he⟩ := he
    split at he
    · rename_i hr
      have hj : i ≠ j := by
        rintro rfl
        rw [hc] at hk; cases hk
        rw [hw] at hr; cases hr
      simp only [Option.some.injEq] at he
      subst he
      cases classify (if k.hs = true then false else t.queue) (sslRead room k).1 <;> simp [handleRead, close, Function.update_of_ne hj, hc]
    · cases he
  | reply j os e =>
    simp only [step, Option.bind_eq_some_iff, Option.map_eq_some_iff] at he
    obtain ⟨k, hk, x, hx, rfl⟩ := he
    split
    · by_cases hj : i = j
      · subst hj; simp [close]
      · simp [close, Function.update_of_ne hj, hc]
    · simp [hc]
  | quit j e =>
    simp only [step, Option.map_eq_some_iff] at he
    obtain ⟨k, hk, rfl⟩ := he
    by_cases hj : i = j
    · subst hj; simp [close]
    · simp [close, Function.update_of_ne hj, hc]

/-- **C87** is false: of a request that is sent as one record of 16384 bytes the last byte is not read, and the thread waits for the client (see `waits`), which waits for the answer. -/
theorem last_byte_not_read (d : Bytes) (hd : d.length = maxRecord) :
    ∃ t c, Reach maxRecord t ∧ t.conn 0 = some c ∧ c.readable = false ∧ t.sent 0 = d ∧ t.got 0 = d.take 16383 ∧ t.got 0 ≠ d := by
  have hne : d ≠ [] := by rintro rfl; simp [maxRecord] at hd
  let t1 : T := { new with conn := update new.conn 0 (some ⟨false, [], [], false, false, false⟩) }
  have h1 : step new (.accept 0 .zero) = some t1 := rfl
  let t2 : T := { t1 with conn := update t1.conn 0 (some ⟨false, [], [d], false, false, false⟩), sent := update t1.sent 0 d }
  have h2 : step t1 (.record 0 d) = some t2 := by
    simp [step, t1, t2, hd, new]
  let t3 : T := { t2 with conn := update t2.conn 0 (some ⟨false, d.drop room, [], false, false, false⟩), got := update t2.got 0 (d.take room) }
  have h3 : step t2 (.event 0 false) = some t3 := by
    simp [step, t2, t3, t1, new, Ssl.readable, sslRead, take, hne, classify, handleRead]
  refine ⟨t3, ⟨false, d.drop room, [], false, false, false⟩, ?_, by simp [t3], rfl, by simp [t3, t2], by simp [t3, room], ?_⟩
  · exact .step (.event 0 false) (.step (.record 0 d) (.step (.accept 0 .zero) .new trivial h1) (by simp [Act.Short, hd]) h2) trivial h3
  · simp only [t3, Function.update_self]
    intro he
    have := congrArg List.length he
    rw [List.length_take, hd] at this
    simp [room, maxRecord] at this

/-- A request of 16384 bytes. -/
example : ∃ d : Bytes, d.length = maxRecord := ⟨List.replicate maxRecord 97, List.length_replicate⟩

/-! ### Proofs: failures -/

structure BlameInv (t : T) : Prop where
  queue : t.queue = true → t.failed = true
  ends : ∀ i c, t.conn i = some c → c.eof = true ∨ c.bad = true → t.reason i = true

theorem sslRead_flags (len : Nat) (c : Ssl) : (sslRead len c).2.eof = c.eof ∧ (sslRead len c).2.bad = c.bad ∧ ((sslRead len c).1 = .zero → c.eof = true) ∧
    ((sslRead len c).1 = .fatal → c.bad = true) := by
  unfold sslRead
  split
  · simp
  · split
    · simp
    · simp only []
      split
      · rename_i h; simp [h]
      · split
        · rename_i h; simp [h]
        · simp

theorem flush_queue {q : Bool} {os : List Out} {x : Bool × Bool} (h : flush q os = some x) : (x.2 = true → q = true ∨ .fatal ∈ os) ∧ (x.1 = true → q = true ∨ .fatal ∈ os) := by
  induction os with
  | nil => simp [flush] at h
  | cons o os ih =>
    rw [flush] at h
    cases hc : classify q o with
    | data d => simp only [hc, Option.some.injEq] at h; subst h; exact ⟨fun a => .inl a, by simp⟩
    | again =>
      simp only [hc] at h
      obtain ⟨h1, h2⟩ := ih h
      exact ⟨fun a => (h1 a).imp_right fun b => by simp [b], fun a => (h2 a).imp_right fun b => by simp [b]⟩
    | zero => simp [hc] at h
    | io =>
      simp only [hc, Option.some.injEq] at h
      subst h
      have : q = true ∨ o = .fatal := by
        revert hc
        cases o <;> cases q <;> simp [classify, getError]
      constructor
      · intro _; rcases this with a | a
        · exact .inl a
        · exact .inr (by simp [a])
      · intro _; rcases this with a | a
        · exact .inl a
        · exact .inr (by simp [a])

theorem close_blame {t : T} (h1 : t.queue = true → t.failed = true) (h2 : ∀ i c, t.conn i = some c → c.eof = true ∨ c.bad = true → t.reason i = true) (i : Nat) (c : Ssl)
    (e : Bool) : BlameInv (close t i c e) := by
  refine ⟨?_, fun j k hk => ?_⟩
  · simp only [close, Bool.or_eq_true]
    rintro (h | h)
    · exact .inl (h1 h)
    · exact .inr h
  · by_cases hj : j = i
    · subst hj; simp [close] at hk
    · simp only [close, Function.update_of_ne hj] at hk
      exact h2 j k hk

/-- Both about a step: the invariant is kept, and what is closed is closed for a reason, unless something failed before. -/
theorem step_blame {t t' : T} (h : BlameInv t) {a : Act} (he : step t a = some t') :
    BlameInv t' ∧ ∀ i, t.closed i = false → t'.closed i = true → t.failed = true ∨ t'.reason i = true := by
  cases a with
  | record j d =>
    simp only [step, Option.bind_eq_some_iff] at he
    obtain ⟨k, hk, he⟩ := he
    split at he
    · cases he
    · cases he
      refine ⟨⟨h.queue, fun i c hc hx => ?_⟩, fun i h1 h2 => by simp [h1] at h2⟩
      by_cases hj : i = j
      · subst hj
        simp only [Function.update_self, Option.some.injEq] at hc
        subst hc
        exact h.ends i k hk hx
      · simp only [Function.update_of_ne hj] at hc
        exact h.ends i c hc hx
  | part j =>
    simp only [step, Option.bind_eq_some_iff] at he
    obtain ⟨k, hk, he⟩ := he
    split at he
    · cases he
    · cases he
      refine ⟨⟨h.queue, fun i c hc hx => ?_⟩, fun i h1 h2 => by simp [h1] at h2⟩
      by_cases hj : i = j
      · subst hj
        simp only [Function.update_self, Option.some.injEq] at hc
        subst hc
        exact h.ends i k hk hx
      · simp only [Function.update_of_ne hj] at hc
        exact h.ends i c hc hx
  | eof j =>
    simp only [step, Option.bind_eq_some_iff] at he
    obtain ⟨k, hk, he⟩ := he
    split at he
    · cases he
    · cases he
      refine ⟨⟨h.queue, fun i c hc hx => ?_⟩, fun i h1 h2 => by simp [h1] at h2⟩
      by_cases hj : i = j
      · subst hj; simp
      · simp only [Function.update_of_ne hj] at hc ⊢
        exact h.ends i c hc hx
  | bad j =>
    simp only [step, Option.bind_eq_some_iff] at he
    obtain ⟨k, hk, he⟩ := he
    split at he
    · cases he
    · cases he
      refine ⟨⟨h.queue, fun i c hc hx => ?_⟩, fun i h1 h2 => by simp [h1] at h2⟩
      by_cases hj : i = j
      · subst hj; simp
      · simp only [Function.update_of_ne hj] at hc ⊢
        exact h.ends i c hc hx
  | accept j o =>
    simp only [step] at he
    split at he
    · cases he
    · rename_i hn
      simp only [Bool.or_eq_true, not_or, Bool.not_eq_true, Option.isSome_eq_false_iff, Option.isNone_iff_eq_none] at hn
      split at he
      · cases he
        refine ⟨⟨by simp, fun i c hc hx => ?_⟩, fun i h1 h2 => ?_⟩
        · by_cases hj : i = j
          · subst hj; simp
          · simp only [Function.update_of_ne hj]; exact h.ends i c hc hx
        · by_cases hj : i = j
          · subst hj; simp
          · simp only [Function.update_of_ne hj] at h2; simp [h1] at h2
      all_goals
        cases he
        refine ⟨⟨by simp, fun i c hc hx => ?_⟩, fun i h1 h2 => by simp [h1] at h2⟩
        by_cases hj : i = j
        · subst hj
          simp only [Function.update_self, Option.some.injEq] at hc
          subst hc
          simp at hx
        · simp only [Function.update_of_ne hj] at hc
          exact h.ends i c hc hx
  | event j e =>
    simp only [step, Option.bind_eq_some_iff] at he
    obtain ⟨k, hk, he⟩ := he
    split at he
    · simp only [Option.some.injEq] at he
      obtain ⟨g1, g2, g3, g4⟩ := sslRead_flags room k
      have hq : (if k.hs = true then false else t.queue) = true → (if k.hs = true then false else t.failed) = true := by
        split
        · simp
        · exact h.queue
      have hq' : (if k.hs = true then false else t.queue) = true → t.failed = true := by
        split
        · simp
        · exact h.queue
      subst he
      generalize sslRead room k = x at g1 g2 g3 g4
      generalize (if k.hs = true then false else t.queue) = q at hq hq'
      generalize (if k.hs = true then false else t.failed) = f at hq
      have hqx : (q || decide (x.1 = .fatal)) = true → (f || decide (x.1 = .fatal)) = true := by
        simp only [Bool.or_eq_true, decide_eq_true_eq]
        rintro (a | a)
        · exact .inl (hq a)
        · exact .inr a
      have hkeep : ∀ i c, update t.conn j (some x.2) i = some c → c.eof = true ∨ c.bad = true → t.reason i = true := by
        intro i c hc hx
        by_cases hj : i = j
        · subst hj
          simp only [Function.update_self, Option.some.injEq] at hc
          subst hc
          rw [g1, g2] at hx
          exact h.ends i k hk hx
        · simp only [Function.update_of_ne hj] at hc
          exact h.ends i c hc hx
      have hclose : (t.failed = true ∨ t.reason j = true) → ∀ i, t.closed i = false → update t.closed j true i = true → t.failed = true ∨ t.reason i = true := by
        intro hr i h1 h2
        by_cases hj : i = j
        · subst hj; exact hr
        · simp only [Function.update_of_ne hj, h1] at h2; cases h2
      cases hr : classify q x.1 with
      | data d => exact ⟨⟨hqx, hkeep⟩, fun i h1 h2 => by simp [handleRead, h1] at h2⟩
      | again => exact ⟨⟨hqx, hkeep⟩, fun i h1 h2 => by simp [handleRead, h1] at h2⟩
      | zero =>
        refine ⟨close_blame (t := { t with queue := q || decide (x.1 = .fatal), failed := f || decide (x.1 = .fatal) }) hqx h.ends j x.2 e, hclose ?_⟩
        have : x.1 = .zero := by
          revert hr
          cases x.1 <;> cases q <;> simp [classify, getError]
        exact .inr (h.ends j k hk (.inl (g3 this)))
      | io =>
        refine ⟨close_blame (t := { t with queue := q || decide (x.1 = .fatal), failed := f || decide (x.1 = .fatal) }) hqx h.ends j x.2 e, hclose ?_⟩
        have : q = true ∨ x.1 = .fatal := by
          revert hr
          cases x.1 <;> cases q <;> simp [classify, getError]
        rcases this with a | a
        · exact .inl (hq' a)
        · exact .inr (h.ends j k hk (.inr (g4 a)))
    · cases he
  | reply j os e =>
    simp only [step, Option.bind_eq_some_iff, Option.map_eq_some_iff] at he
    obtain ⟨k, hk, x, hx, rfl⟩ := he
    obtain ⟨f1, f2⟩ := flush_queue hx
    have hq : x.2 = true → (t.failed || decide (Out.fatal ∈ os)) = true := by
      intro a
      simp only [Bool.or_eq_true, decide_eq_true_eq]
      exact (f1 a).imp_left h.queue
    have hends : ∀ i c, t.conn i = some c → c.eof = true ∨ c.bad = true → (if Out.fatal ∈ os then update t.reason j true else t.reason) i = true := by
      intro i c hc hx
      have := h.ends i c hc hx
      split
      · by_cases hj : i = j
        · subst hj; simp
        · simp [Function.update_of_ne hj, this]
      · exact this
    split
    · rename_i hcl
      refine ⟨close_blame hq hends j k e, fun i h1 h2 => ?_⟩
      by_cases hj : i = j
      · subst hj
        rcases f2 hcl with a | a
        · exact .inl (h.queue a)
        · exact .inr (by simp [close, a])
      · simp [close, Function.update_of_ne hj, h1] at h2
    · exact ⟨⟨hq, hends⟩, fun i h1 h2 => by simp [h1] at h2⟩
  | quit j e =>
    simp only [step, Option.map_eq_some_iff] at he
    obtain ⟨k, hk, rfl⟩ := he
    refine ⟨close_blame (t := { t with reason := update t.reason j true }) h.queue (fun i c hc hx => ?_) j k e, fun i h1 h2 => ?_⟩
    · by_cases hj : i = j
      · subst hj; simp
      · simp [Function.update_of_ne hj, h.ends i c hc hx]
    · by_cases hj : i = j
      · subst hj; simp [close]
      · simp [close, Function.update_of_ne hj, h1] at h2

theorem reach_blame {m : Nat} {t : T} (h : Reach m t) : BlameInv t := by
  induction h with
  | new => exact ⟨by simp [new], by simp [new]⟩
  | step a hr ha he ih => exact (step_blame ih he).1

/-- **C88**, in part: if no operation of TLS has failed in this thread since the last handshake, a connection is closed only because its client ended or broke it, its reply could not be written, or
the handler closed it.  (The full claim does not depend on what happened to other connections.) -/
theorem closed_for_a_reason_partial {m : Nat} {t t' : T} (h : Reach m t) (hf : t.failed = false) {a : Act} (he : step t a = some t') {i : Nat} (h1 : t.closed i = false)
    (h2 : t'.closed i = true) : t'.reason i = true := by
  rcases (step_blame (reach_blame h) he).2 i h1 h2 with a | a
  · rw [hf] at a; cases a
  · exact a

/-- Steps one after the other. -/
def run : List Act → T → Option T
  | [], t => some t
  | a :: as, t => (step t a).bind (run as)

theorem run_reach {as : List Act} {t t' : T} {m : Nat} (h : Reach m t) (hs : ∀ a ∈ as, a.Short m) (he : run as t = some t') : Reach m t' := by
  induction as generalizing t with
  | nil => simp only [run, Option.some.injEq] at he; subst he; exact h
  | cons a as ih =>
    simp only [run, Option.bind_eq_some_iff] at he
    obtain ⟨t1, h1, h2⟩ := he
    exact ih (.step a h (hs a (by simp)) h1) (fun b hb => hs b (by simp [hb])) h2

/-- Two clients connect and are served; the first sends something that is not TLS, and of the second half a record arrives. -/
def twoClients : List Act :=
  [.accept 0 .zero, .accept 1 .zero, .record 0 [112, 105], .record 1 [112], .event 0 false, .event 1 false, .bad 0, .event 0 false, .part 1]

/-- **C88** is false: the error of the first connection is taken for one of the second, which is closed though its client and the handler did nothing wrong. -/
theorem failure_closes_other : ∃ t t', Reach maxRecord t ∧ step t (.event 1 false) = some t' ∧ t.closed 1 = false ∧ t'.closed 1 = true ∧ t'.reason 1 = false ∧ t.got 1 = [112] := by
  refine ⟨(run twoClients new).get (by decide +kernel), (run (twoClients ++ [.event 1 false]) new).get (by decide +kernel), ?_, ?_⟩
  · refine run_reach .new ?_ (Option.some_get _).symm
    intro a ha
    simp only [twoClients, List.mem_cons, List.not_mem_nil, or_false] at ha
    rcases ha with rfl | rfl | rfl | rfl | rfl | rfl | rfl | rfl | rfl <;> simp [Act.Short, maxRecord]
  · refine ⟨?_, by decide +kernel, by decide +kernel, by decide +kernel, by decide +kernel⟩
    rfl

/-- Without the failure, the second connection is kept, and the rest of its record is handled. -/
example : ∃ t c, Reach room t ∧ t.failed = false ∧ t.conn 1 = some c ∧ c.readable = false ∧ t.got 1 = [112, 111, 110] ∧ t.closed 0 = true ∧ t.reason 0 = true := by
  let l : List Act := [.accept 0 .zero, .accept 1 .want, .record 1 [112], .event 1 false, .part 1, .event 1 false, .eof 0, .event 0 false, .record 1 [111, 110], .event 1 false]
  refine ⟨(run l new).get (by decide +kernel), ((run l new).bind (·.conn 1)).get (by decide +kernel), ?_, by decide +kernel, by simp, by decide +kernel, by decide +kernel,
    by decide +kernel, by decide +kernel⟩
  refine run_reach .new ?_ (Option.some_get _).symm
  intro a ha
  simp only [l, List.mem_cons, List.not_mem_nil, or_false] at ha
  rcases ha with rfl | rfl | rfl | rfl | rfl | rfl | rfl | rfl | rfl | rfl <;> simp [Act.Short, room]

theorem take_isSome {l : List Bytes} {r : Bytes} (h : r ∈ l) (hr : r ≠ []) : ∃ x, take l = some x := by
  induction l with
  | nil => cases h
  | cons a l ih =>
    rw [take]
    split
    · rename_i ha
      rcases List.mem_cons.1 h with rfl | h
      · exact absurd ha hr
      · exact ih h
    · exact ⟨_, rfl⟩

/-- **C88**, in part: also after failures on other connections, a connection on which bytes are waiting is not closed by the next event: some of them are given to the handler. -/
theorem waiting_bytes_are_read_partial {t t' : T} {i : Nat} {c : Ssl} {e : Bool} (hc : t.conn i = some c) (hd : c.cur ≠ [] ∨ ∃ r ∈ c.recs, r ≠ [])
    (he : step t (.event i e) = some t') : (∃ c', t'.conn i = some c') ∧ t'.closed = t.closed ∧ (t.got i).length < (t'.got i).length ∧ t.got i <+: t'.got i := by
  simp only [step, hc, Option.bind_some] at he
  split at he
  · simp only [Option.some.injEq] at he
    obtain ⟨d, hx, hne⟩ : ∃ d, (sslRead room c).1 = .data d ∧ 0 < d.length := by
      unfold sslRead
      split
      · rename_i h
        have := List.length_pos_iff.2 h
        exact ⟨_, rfl, by rw [List.length_take]; simp only [room]; omega⟩
      · rename_i h
        simp only [ne_eq, not_not] at h
        rcases hd with hd | ⟨r, hr, hr'⟩
        · exact absurd h hd
        obtain ⟨⟨r', rs⟩, hx⟩ := take_isSome hr hr'
        rw [hx]
        have := List.length_pos_iff.2 (take_some hx).2.1
        exact ⟨_, rfl, by rw [List.length_take]; simp only [room]; omega⟩
    rw [hx] at he
    subst he
    simp only [classify, handleRead, Function.update_self]
    exact ⟨⟨_, rfl⟩, trivial, by simp; omega, _, rfl⟩
  · cases he

/-- In the situation of `failure_closes_other`, but with the whole record there, the second connection is served. -/
example : ∃ t c t', t.failed = true ∧ t.conn 1 = some c ∧ (c.cur ≠ [] ∨ ∃ r ∈ c.recs, r ≠ []) ∧ step t (.event 1 false) = some t' ∧ t'.got 1 = [112, 111, 110] := by
  refine ⟨(run (twoClients ++ [.record 1 [111, 110]]) new).get (by decide +kernel), ((run (twoClients ++ [.record 1 [111, 110]]) new).bind (·.conn 1)).get (by decide +kernel),
    (run (twoClients ++ [.record 1 [111, 110], .event 1 false]) new).get (by decide +kernel), by decide +kernel, by simp, .inr ⟨[111, 110], by decide +kernel, by simp⟩, rfl, by decide +kernel⟩

end Verif.Net.TlsIo
