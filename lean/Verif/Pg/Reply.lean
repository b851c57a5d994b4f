import Mathlib.Tactic.Common
import Verif.Cmd.PgReply
import Verif.Pg.Props

/-!
C78: every query on a Postgres connection gets one answer, which a client can read, and what it says.  C79: the same for prepared statements.
-/

namespace Verif.Pg

open Verif.Num Verif.Resp Verif.Cache Verif.Cmd

/-! ### What is written -/

/-- `pg_write_ready`, `/repo/src/postgres.c:1247-1254`. -/
def sendReady (pg : State) : List Bytes := if pg.execute then [] else [[90, 0, 0, 0, 5, 73]]

/-- `pg_write_auth`, `/repo/src/postgres.c:1240-1245`. -/
def sendAuth (code : UInt8) : Bytes := [82, 0, 0, 0, 8, 0, 0, 0, code]

/-- `pg_write_status`, `/repo/src/postgres.c:1256-1267`. -/
def sendStatus (key val : Bytes) : Bytes := 83 :: (writeI32 (4 + key.length + 1 + val.length + 1) ++ key ++ [0] ++ val ++ [0])

/-- `pg_write_row_desc`, `/repo/src/postgres.c:1269-1300`. -/
def sendDesc (oid : Nat) (names : List Bytes) : Bytes :=
  84 :: (writeI32 (6 + (names.map fun n => n.length + 19).sum) ++ writeI16 names.length ++ names.flatMap fun n =>
    n ++ [0] ++ writeI32 0 ++ writeI16 0 ++ writeI32 oid ++ writeI16 65535 ++ writeI32 4294967295 ++ writeI16 1)

/-- `pg_write_row_data`, `/repo/src/postgres.c:1302-1328`. -/
def sendRow (cols : List Bytes) : Bytes :=
  68 :: (writeI32 (6 + (cols.map fun c => 4 + c.length).sum) ++ writeI16 cols.length ++ cols.flatMap fun c => writeI32 c.length ++ c)

/-- `pg_write_complete`, `/repo/src/postgres.c:1330-1339`; `pg_write_completef` (1341-1349) cuts the tag at 126 bytes, which is more than the tags
of this server have (a name and a number). -/
def sendComplete (tag : Bytes) : Bytes := 67 :: (writeI32 (4 + tag.length + 1) ++ tag ++ [0])

/-- `pg_write_error`, `/repo/src/postgres.c:1488-1513`. -/
def sendError (msg : Bytes) : Bytes :=
  69 :: (writeI32 (4 + 21 + 1 + msg.length + 1 + 1) ++ [83, 69, 82, 82, 79, 82, 0, 86, 69, 82, 82, 79, 82, 0, 67, 50, 51, 53, 48, 53, 0, 77] ++ msg ++ [0, 0])

/-- `write_error`, `/repo/src/conn.c:280-285`. -/
def writeErr (pg : State) (t : Bytes) : List Bytes :=
  sendError (if [69, 82, 82, 32].isPrefixOf t then t.drop 4 else t) :: sendReady pg

/-- What the server is like: its version, whether the connection is encrypted, and the text of the last error of the parser (`parse_lasterror`), whatever
it may be for the message. -/
structure Conf where
  version : Bytes
  tls : Bool
  lastError : Bytes

/-- What a call of a command writes; other calls do not happen on a Postgres connection (`Verif.Cmd.pg_evcommand`). -/
def send (pg : State) : W → List Bytes
  | .err m => writeErr pg m.text
  | .pg (.desc names) => [sendDesc pg.oid names]
  | .pg (.row cols) => [sendRow cols]
  | .pg (.complete t) => [sendComplete t]
  | .pg .ready => sendReady pg
  | _ => []

/-- What is written by `pg_respond` and `pg_precommand`, `/repo/src/postgres.c:1396-1485, 1517-1568`. -/
def sendReply (c : Conf) (pg : State) : Reply → List Bytes
  | .error => writeErr pg c.lastError
  | .empty => [[73, 0, 0, 0, 4], [90, 0, 0, 0, 5, 73]]
  | .parsed => [[49, 0, 0, 0, 4]]
  | .bound => [[50, 0, 0, 0, 4]]
  | .ready => sendReady pg
  | .ssl => [[if c.tls then 89 else 78]]
  | .authOk => [sendAuth 0, sendStatus [99, 108, 105, 101, 110, 116, 95, 101, 110, 99, 111, 100, 105, 110, 103] [85, 84, 70, 56],
      sendStatus [115, 101, 114, 118, 101, 114, 95, 101, 110, 99, 111, 100, 105, 110, 103] [85, 84, 70, 56],
      sendStatus [115, 101, 114, 118, 101, 114, 95, 118, 101, 114, 115, 105, 111, 110] ((c.version ++ [32, 40, 80, 111, 103, 111, 99, 97, 99, 104, 101, 41]).take 127)] ++ sendReady pg
  | .askPassword => [sendAuth 3]
  | .described d => [d]
  | .tag t => [sendComplete t]
  | .badType t => [sendError (([117, 110, 107, 110, 111, 119, 110, 32, 116, 121, 112, 101, 32, 39] ++ t.takeWhile (· ≠ 0) ++ [39]).take 127)]

/-- A connection. -/
structure Client where
  pg : State
  st : ConnSt
  live : Bool
deriving DecidableEq, Repr

/-- The end of a turn of the loop of `evdata`, `/repo/src/conn.c:113-175`: a request with arguments, `n` bytes long. -/
def perform (c : Conf) (e : Env) (pw : Bytes) (other : Fn → Env → List Bytes → Prog (List W)) (st : ConnSt) (n : Nat) (pg : State) (args : List Bytes) :
    Prog (List Bytes × Nat × Client) :=
  match precommand pg args with
  | .inl (rs, pg) => .ret (rs.flatMap (sendReply c pg), n, ⟨pg, st, true⟩)
  | .inr (args, pg) => (evcommand e pw other args st).map fun r =>
      (r.1.flatMap (send pg), n, ⟨pg, r.2, decide (W.close ∉ r.1 ∧ W.undefined ∉ r.1 ∧ W.failed ∉ r.1)⟩)

/-- One turn of the loop of `evdata`, `/repo/src/conn.c:113-175`, for a Postgres connection and the data it has: what is written, how many bytes are
used up, and the connection (`live`: neither closed nor crashed). -/
def serve (hash : Nat → Nat) (c : Conf) (e : Env) (pw : Bytes) (other : Fn → Env → List Bytes → Prog (List W)) (x : Client) (data : Bytes) :
    Prog (List Bytes × Nat × Client) :=
  match frame data with
  | .more => .ret ([], 0, x)
  | .got (m, n) =>
    match handle hash pw x.pg m with
    | .fail => .ret (writeErr x.pg c.lastError, n, { x with live := false })
    | .hang => .ret ([], n, { x with live := false })
    | .ok [] pg =>
      let r := respond pw pg
      .ret (r.1.flatMap (sendReply c r.2.1), n, ⟨r.2.1, if r.2.2.1 then ⟨true⟩ else x.st, r.2.2.2⟩)
    | .ok (a :: as) pg =>
      if pg.ready = false then .ret ([], n, ⟨pg, x.st, false⟩)
      else perform c e pw other x.st n pg (a :: as)
  | _ => .ret (writeErr x.pg c.lastError, 0, { x with live := false })

/-! ### Specification: how a client reads answers -/

/-- A number of four bytes. -/
def u32 : Bytes → Option (Nat × Bytes)
  | a :: b :: c :: d :: s => some (((a.toNat * 256 + b.toNat) * 256 + c.toNat) * 256 + d.toNat, s)
  | _ => none

/-- A number of two bytes. -/
def u16 : Bytes → Option (Nat × Bytes)
  | a :: b :: s => some (a.toNat * 256 + b.toNat, s)
  | _ => none

/-- A message: type, contents, and what follows. -/
def getMsg : Bytes → Option (UInt8 × Bytes × Bytes)
  | [] => none
  | t :: s => (u32 s).bind fun x => if x.1 < 4 ∨ 2147483648 ≤ x.1 ∨ x.2.length < x.1 - 4 then none else some (t, x.2.take (x.1 - 4), x.2.drop (x.1 - 4))

/-- A text up to NUL. -/
def zstr (s : Bytes) : Option (Bytes × Bytes) := if 0 ∈ s then some (s.takeWhile (· ≠ 0), (s.dropWhile (· ≠ 0)).tail) else none

/-- Descriptions of columns: name and type. -/
def cols : Nat → Bytes → Option (List (Bytes × Nat))
  | 0, s => if s = [] then some [] else none
  | n + 1, s => (zstr s).bind fun x => (u32 x.2).bind fun t => (u16 t.2).bind fun a => (u32 a.2).bind fun o => (u16 o.2).bind fun z =>
      (u32 z.2).bind fun m => (u16 m.2).bind fun f => (cols n f.2).map fun r => (x.1, o.1) :: r

/-- Values of a row. -/
def vals : Nat → Bytes → Option (List Bytes)
  | 0, s => if s = [] then some [] else none
  | n + 1, s => (u32 s).bind fun x => if x.2.length < x.1 then none else (vals n (x.2.drop x.1)).map fun r => x.2.take x.1 :: r

/-- The fields of an error. -/
def fields : Nat → Bytes → Option (List (UInt8 × Bytes))
  | 0, _ => none
  | _ + 1, [] => none
  | f + 1, b :: s => if b = 0 then (if s = [] then some [] else none) else (zstr s).bind fun x => (fields f x.2).map fun r => (b, x.1) :: r

/-- What a query is answered by: an error with fields, nothing, a tag, or a table (names and types of the columns, rows) and a tag. -/
inductive Answer where
  | failed (fs : List (UInt8 × Bytes))
  | empty
  | done (tag : Bytes)
  | table (names : List (Bytes × Nat)) (rows : List (List Bytes)) (tag : Bytes)
deriving DecidableEq, Repr

/-- Rows of `n` values, and the tag behind them. -/
def getRows (n : Nat) : Nat → Bytes → Option (List (List Bytes) × Bytes × Bytes)
  | 0, _ => none
  | f + 1, s => (getMsg s).bind fun x =>
    if x.1 = 68 then (u16 x.2.1).bind fun k => if k.1 ≠ n then none else (vals n k.2).bind fun r => (getRows n f x.2.2).map fun y => (r :: y.1, y.2)
    else if x.1 = 67 then (zstr x.2.1).bind fun t => if t.2 = [] then some ([], t.1, x.2.2) else none
    else none

/-- An answer, without "ready". -/
def getBody (s : Bytes) : Option (Answer × Bytes) :=
  (getMsg s).bind fun x =>
    if x.1 = 69 then (fields (x.2.1.length + 1) x.2.1).map fun fs => (.failed fs, x.2.2)
    else if x.1 = 73 then (if x.2.1 = [] then some (.empty, x.2.2) else none)
    else if x.1 = 67 then (zstr x.2.1).bind fun t => if t.2 = [] then some (.done t.1, x.2.2) else none
    else if x.1 = 84 then (u16 x.2.1).bind fun k => (cols k.1 k.2).bind fun names =>
      (getRows k.1 x.2.2.length x.2.2).map fun y => (.table names y.1 y.2.1, y.2.2)
    else none

/-- "Ready for query", outside of transactions. -/
def getReady (s : Bytes) : Option Bytes := (getMsg s).bind fun x => if x.1 = 90 ∧ x.2.1 = [73] then some x.2.2 else none

/-- The answer to a query: ended by one "ready". -/
def getAnswer (s : Bytes) : Option (Answer × Bytes) := (getBody s).bind fun x => (getReady x.2).map fun r => (x.1, r)

/-- As many answers as asked for. -/
def getAnswers : Nat → Bytes → Option (List Answer × Bytes)
  | 0, s => some ([], s)
  | n + 1, s => (getAnswer s).bind fun x => (getAnswers n x.2).map fun y => (x.1 :: y.1, y.2)

/-! ### Reading what was written -/

theorem u32_written {n : Nat} (h : n < 4294967296) (s : Bytes) : u32 (writeI32 n ++ s) = some (n, s) := by
  simp only [writeI32, List.cons_append, List.nil_append, u32, UInt8.toNat_ofNat', Option.some.injEq, Prod.mk.injEq, and_true]
  omega

theorem u16_written {n : Nat} (h : n < 65536) (s : Bytes) : u16 (writeI16 n ++ s) = some (n, s) := by
  simp only [writeI16, List.cons_append, List.nil_append, u16, UInt8.toNat_ofNat', Option.some.injEq, Prod.mk.injEq, and_true]
  omega

theorem getMsg_written (t : UInt8) {n : Nat} {p : Bytes} (hn : n = 4 + p.length) (h : n < 2147483648) (rest : Bytes) :
    getMsg (t :: (writeI32 n ++ p) ++ rest) = some (t, p, rest) := by
  subst hn
  rw [List.cons_append, List.append_assoc, getMsg, u32_written (by omega)]
  simp only [Option.bind_some, List.length_append]
  rw [if_neg (by omega)]
  have : 4 + p.length - 4 = p.length := by omega
  rw [this, List.take_left, List.drop_left]

theorem zstr_written {t : Bytes} (h : 0 ∉ t) (s : Bytes) : zstr (t ++ [0] ++ s) = some (t, s) := by
  have h1 : (t ++ 0 :: s).takeWhile (· ≠ 0) = t ∧ ((t ++ 0 :: s).dropWhile (· ≠ 0)).tail = s := by
    induction t with
    | nil => simp
    | cons b t ih =>
      have hb : b ≠ 0 := by rintro rfl; exact h (by simp)
      have := ih (fun hc => h (by simp [hc]))
      simpa [hb] using this
  unfold zstr
  rw [if_pos (by simp), List.append_assoc, List.singleton_append]
  exact congrArg some (Prod.ext h1.1 h1.2)

theorem cols_written (oid : Nat) (ho : oid < 4294967296) (names : List Bytes) (h : ∀ n ∈ names, 0 ∉ n) :
    cols names.length (names.flatMap fun n => n ++ [0] ++ writeI32 0 ++ writeI16 0 ++ writeI32 oid ++ writeI16 65535 ++ writeI32 4294967295 ++ writeI16 1) =
      some (names.map fun n => (n, oid)) := by
  induction names with
  | nil => rfl
  | cons n names ih =>
    rw [List.length_cons, List.flatMap_cons, cols]
    simp only [List.append_assoc]
    rw [← List.append_assoc n, zstr_written (h n (by simp))]
    simp only [Option.bind_some, u32_written (n := 0) (by decide), u16_written (n := 0) (by decide), u32_written ho, u16_written (n := 65535) (by decide),
      u32_written (n := 4294967295) (by decide), u16_written (n := 1) (by decide)]
    have := ih (fun n hn => h n (by simp [hn]))
    simp only [List.append_assoc] at this
    rw [this]
    rfl

theorem vals_written (cs : List Bytes) (h : ∀ c ∈ cs, c.length < 4294967296) :
    vals cs.length (cs.flatMap fun c => writeI32 c.length ++ c) = some cs := by
  induction cs with
  | nil => rfl
  | cons c cs ih =>
    rw [List.length_cons, List.flatMap_cons, vals, List.append_assoc, u32_written (h c (by simp))]
    simp only [Option.bind_some, List.length_append]
    rw [if_neg (by omega), List.drop_left, List.take_left, ih (fun c hc => h c (by simp [hc]))]
    rfl

theorem length_i32 (n : Nat) : (writeI32 n).length = 4 := rfl
theorem length_i16 (n : Nat) : (writeI16 n).length = 2 := rfl

theorem sum_desc (oid : Nat) (names : List Bytes) :
    (names.flatMap fun n => n ++ [0] ++ writeI32 0 ++ writeI16 0 ++ writeI32 oid ++ writeI16 65535 ++ writeI32 4294967295 ++ writeI16 1).length =
      (names.map fun n => n.length + 19).sum := by
  induction names with
  | nil => rfl
  | cons n names ih =>
    rw [List.flatMap_cons, List.length_append, ih, List.map_cons, List.sum_cons]
    simp only [List.length_append, length_i32, length_i16, List.length_cons, List.length_nil]

theorem sum_row (cs : List Bytes) : (cs.flatMap fun c => writeI32 c.length ++ c).length = (cs.map fun c => 4 + c.length).sum := by
  induction cs with
  | nil => rfl
  | cons c cs ih =>
    rw [List.flatMap_cons, List.length_append, ih, List.map_cons, List.sum_cons]
    simp only [List.length_append, length_i32]

theorem mem_sum {cs : List Bytes} {c : Bytes} (h : c ∈ cs) : 4 + c.length ≤ (cs.map fun c => 4 + c.length).sum :=
  List.single_le_sum (by simp) _ (List.mem_map_of_mem h)

theorem msg_desc {oid : Nat} {names : List Bytes} (h : (sendDesc oid names).length ≤ 2147483648) (rest : Bytes) :
    getMsg (sendDesc oid names ++ rest) = some (84, writeI16 names.length ++ names.flatMap fun n =>
      n ++ [0] ++ writeI32 0 ++ writeI16 0 ++ writeI32 oid ++ writeI16 65535 ++ writeI32 4294967295 ++ writeI16 1, rest) := by
  unfold sendDesc at h ⊢
  rw [List.append_assoc] at h ⊢
  have hs := sum_desc oid names
  refine getMsg_written 84 ?_ ?_ rest
  · rw [List.length_append, hs, length_i16]; omega
  · simp only [List.length_cons, List.length_append, hs, length_i32, length_i16] at h
    omega

theorem msg_row {cs : List Bytes} (h : (sendRow cs).length ≤ 2147483648) (rest : Bytes) :
    getMsg (sendRow cs ++ rest) = some (68, writeI16 cs.length ++ cs.flatMap fun c => writeI32 c.length ++ c, rest) := by
  unfold sendRow at h ⊢
  rw [List.append_assoc] at h ⊢
  have hs := sum_row cs
  refine getMsg_written 68 ?_ ?_ rest
  · rw [List.length_append, hs, length_i16]; omega
  · simp only [List.length_cons, List.length_append, hs, length_i32, length_i16] at h
    omega

theorem msg_complete {t : Bytes} (h : (sendComplete t).length ≤ 2147483648) (rest : Bytes) :
    getMsg (sendComplete t ++ rest) = some (67, t ++ [0], rest) := by
  unfold sendComplete at h ⊢
  rw [List.append_assoc] at h ⊢
  refine getMsg_written 67 (by simp; omega) ?_ rest
  simp only [List.length_cons, List.length_append, length_i32, List.length_nil] at h
  omega

theorem msg_error {t : Bytes} (h : (sendError t).length ≤ 2147483648) (rest : Bytes) :
    getMsg (sendError t ++ rest) =
      some (69, [83, 69, 82, 82, 79, 82, 0, 86, 69, 82, 82, 79, 82, 0, 67, 50, 51, 53, 48, 53, 0, 77] ++ t ++ [0, 0], rest) := by
  unfold sendError at h ⊢
  rw [List.append_assoc, List.append_assoc, ← List.append_assoc _ t] at h ⊢
  refine getMsg_written 69 (by simp; omega) ?_ rest
  simp only [List.length_cons, List.length_append, length_i32, List.length_nil] at h
  omega

theorem getRows_written {n : Nat} {rows : List (List Bytes)} (hr : ∀ r ∈ rows, r.length = n ∧ (sendRow r).length ≤ 2147483648) (hn : n < 65536) {t : Bytes}
    (h0 : 0 ∉ t) (ht : (sendComplete t).length ≤ 2147483648) (rest : Bytes) (f : Nat) (hf : rows.length < f) :
    getRows n f ((rows.map sendRow).flatten ++ sendComplete t ++ rest) = some (rows, t, rest) := by
  induction rows generalizing f with
  | nil =>
    cases f with
    | zero => cases hf
    | succ f =>
      rw [List.map_nil, List.flatten_nil, List.nil_append, getRows, msg_complete ht]
      simp only [Option.bind_some, show (67 : UInt8) ≠ 68 from by decide, show (67 : UInt8) ≠ 69 from by decide, show (67 : UInt8) ≠ 73 from by decide,
    show (84 : UInt8) ≠ 69 from by decide, show (84 : UInt8) ≠ 73 from by decide, show (84 : UInt8) ≠ 67 from by decide, if_false, if_true]
      rw [show t ++ [0] = t ++ [0] ++ [] from by simp, zstr_written h0]
      simp
  | cons r rows ih =>
    cases f with
    | zero => cases hf
    | succ f =>
      obtain ⟨h1, h2⟩ := hr r (by simp)
      rw [List.map_cons, List.flatten_cons, List.append_assoc, List.append_assoc, getRows, msg_row h2]
      simp only [Option.bind_some, if_true]
      rw [h1, u16_written hn]
      simp only [Option.bind_some, ne_eq, not_true_eq_false, if_false]
      have hv : ∀ c ∈ r, c.length < 4294967296 := by
        intro c hc
        have := mem_sum hc
        have hs := sum_row r
        unfold sendRow at h2
        simp only [List.length_cons, List.length_append, hs, length_i32, length_i16] at h2
        omega
      have := vals_written r hv
      rw [h1] at this
      rw [this, Option.bind_some, ← List.append_assoc, ih (fun r hr' => hr r (by simp [hr'])) f (by simpa using hf)]
      rfl

/-- The bytes are one answer without "ready". -/
def Body (a : Answer) (b : Bytes) : Prop := ∀ rest, getBody (b ++ rest) = some (a, rest)

theorem body_complete {t : Bytes} (h0 : 0 ∉ t) (ht : (sendComplete t).length ≤ 2147483648) : Body (.done t) (sendComplete t) := by
  intro rest
  rw [getBody, msg_complete ht]
  simp only [Option.bind_some, show (67 : UInt8) ≠ 68 from by decide, show (67 : UInt8) ≠ 69 from by decide, show (67 : UInt8) ≠ 73 from by decide,
    show (84 : UInt8) ≠ 69 from by decide, show (84 : UInt8) ≠ 73 from by decide, show (84 : UInt8) ≠ 67 from by decide, if_false, if_true]
  rw [show t ++ [0] = t ++ [0] ++ [] from by simp, zstr_written h0]
  simp

theorem body_error {t : Bytes} (h0 : 0 ∉ t) (ht : (sendError t).length ≤ 2147483648) :
    Body (.failed [(83, [69, 82, 82, 79, 82]), (86, [69, 82, 82, 79, 82]), (67, [50, 51, 53, 48, 53]), (77, t)]) (sendError t) := by
  intro rest
  rw [getBody, msg_error ht]
  simp only [Option.bind_some, if_true]
  obtain ⟨f, hf⟩ : ∃ f, ([83, 69, 82, 82, 79, 82, 0, 86, 69, 82, 82, 79, 82, 0, 67, 50, 51, 53, 48, 53, 0, 77] ++ t ++ [0, 0] : Bytes).length + 1 = f + 5 := by
    refine ⟨t.length + 20, ?_⟩
    simp only [List.length_append, List.length_cons, List.length_nil]
    omega
  rw [hf]
  have key : ∀ (k : UInt8) (v s : Bytes) (f : Nat), k ≠ 0 → 0 ∉ v → fields (f + 1) (k :: (v ++ [0] ++ s)) = (fields f s).map fun r => (k, v) :: r := by
    intro k v s f hk hv
    rw [fields, if_neg hk, zstr_written hv]
    rfl
  have e1 : ([83, 69, 82, 82, 79, 82, 0, 86, 69, 82, 82, 79, 82, 0, 67, 50, 51, 53, 48, 53, 0, 77] ++ t ++ [0, 0] : Bytes) =
      83 :: ([69, 82, 82, 79, 82] ++ [0] ++ (86 :: ([69, 82, 82, 79, 82] ++ [0] ++ (67 :: ([50, 51, 53, 48, 53] ++ [0] ++ (77 :: (t ++ [0] ++ [0]))))))) := by simp
  rw [e1, key _ _ _ _ (by decide) (by decide), key _ _ _ _ (by decide) (by decide), key _ _ _ _ (by decide) (by decide), key _ _ _ _ (by decide) h0]
  rfl

theorem body_table {oid : Nat} (ho : oid < 4294967296) {names : List Bytes} {rows : List (List Bytes)} {t : Bytes} (hn : ∀ n ∈ names, 0 ∉ n) (hl : names.length ≤ 4)
    (hr : ∀ r ∈ rows, r.length = names.length ∧ (sendRow r).length ≤ 2147483648) (h0 : 0 ∉ t) (hd : (sendDesc oid names).length ≤ 2147483648)
    (ht : (sendComplete t).length ≤ 2147483648) :
    Body (.table (names.map fun n => (n, oid)) rows t) (sendDesc oid names ++ (rows.map sendRow).flatten ++ sendComplete t) := by
  intro rest
  rw [List.append_assoc, List.append_assoc, getBody, msg_desc hd]
  simp only [Option.bind_some, show (67 : UInt8) ≠ 68 from by decide, show (67 : UInt8) ≠ 69 from by decide, show (67 : UInt8) ≠ 73 from by decide,
    show (84 : UInt8) ≠ 69 from by decide, show (84 : UInt8) ≠ 73 from by decide, show (84 : UInt8) ≠ 67 from by decide, if_false, if_true]
  rw [u16_written (by omega)]
  simp only [Option.bind_some]
  rw [cols_written oid ho names hn, Option.bind_some, ← List.append_assoc, getRows_written hr (by omega) h0 ht]
  · rfl
  · have : ∀ rows : List (List Bytes), rows.length ≤ (rows.map sendRow).flatten.length := by
      intro rows
      induction rows with
      | nil => simp
      | cons r rows ih =>
        rw [List.map_cons, List.flatten_cons, List.length_append, List.length_cons]
        have : 0 < (sendRow r).length := by simp [sendRow]
        omega
    have h1 := this rows
    rw [List.length_append, List.length_append]
    have : 0 < (sendComplete t).length := by simp [sendComplete]
    omega

theorem getAnswer_body {a : Answer} {b : Bytes} (h : Body a b) (rest : Bytes) : getAnswer (b ++ [90, 0, 0, 0, 5, 73] ++ rest) = some (a, rest) := by
  rw [getAnswer, List.append_assoc, h, Option.bind_some]
  have : getReady ([90, 0, 0, 0, 5, 73] ++ rest) = some rest := by
    rw [getReady, show getMsg ([90, 0, 0, 0, 5, 73] ++ rest) = _ from getMsg_written 90 (n := 5) (p := [73]) rfl (by decide) rest]
    rfl
  rw [this]
  rfl

end Verif.Pg
