import Mathlib.Tactic.Common
import Verif.Http.Props
import Verif.Cmd.OneReply

/-!
C76: HTTP responses.
-/

namespace Verif.Http

open Verif.Num Verif.Resp Verif.Cmd Verif.Cache Function

/-! ### Model -/

/-- "HTTP/1.1 " -/
def version11 : Bytes := [72, 84, 84, 80, 47, 49, 46, 49, 32]
/-- "Content-Length: " -/
def lengthField : Bytes := [67, 111, 110, 116, 101, 110, 116, 45, 76, 101, 110, 103, 116, 104, 58, 32]
/-- "Connection: Close" -/
def closeField : Bytes := [67, 111, 110, 110, 101, 99, 116, 105, 111, 110, 58, 32, 67, 108, 111, 115, 101]

/-- `conn_write_http`, `/repo/src/conn.c:364-386`; the head always fits into its 512 bytes. -/
def writeHttp (code : Nat) (status body : Bytes) : Bytes :=
  version11 ++ u64toa code ++ [32] ++ status ++ [13, 10] ++ lengthField ++ u64toa body.length ++ [13, 10] ++ closeField ++ [13, 10] ++ [13, 10] ++ body

/-- "OK" -/
def okText : Bytes := [79, 75]
/-- "Not Found" -/
def notFoundText : Bytes := [78, 111, 116, 32, 70, 111, 117, 110, 100]
/-- "Unauthorized" -/
def unauthorizedText : Bytes := [85, 110, 97, 117, 116, 104, 111, 114, 105, 122, 101, 100]
/-- "Bad Request" -/
def badRequestText : Bytes := [66, 97, 100, 32, 82, 101, 113, 117, 101, 115, 116]
/-- "Invalid Key" -/
def invalidKeyText : Bytes := [73, 110, 118, 97, 108, 105, 100, 32, 75, 101, 121]
/-- "Method Not Allowed" -/
def methodText : Bytes := [77, 101, 116, 104, 111, 100, 32, 78, 111, 116, 32, 65, 108, 108, 111, 119, 101, 100]
/-- "Internal Server Error" -/
def internalText : Bytes := [73, 110, 116, 101, 114, 110, 97, 108, 32, 83, 101, 114, 118, 101, 114, 32, 69, 114, 114, 111, 114]
/-- "Show Help HTML" -/
def helpHtml : Bytes := [83, 104, 111, 119, 32, 72, 101, 108, 112, 32, 72, 84, 77, 76]
/-- "Show Help TEXT" -/
def helpPlain : Bytes := [83, 104, 111, 119, 32, 72, 101, 108, 112, 32, 84, 69, 88, 84]
/-- "ERR " -/
def errPrefix : Bytes := [69, 82, 82, 32]

/-- The texts of the errors, `/repo/src/http.c:348-366`. -/
def HErr.text : HErr → Bytes
  | .badRequest => badRequestText
  | .invalidKey => invalidKeyText
  | .unauthorized => unauthorizedText
  | .showHelp true => helpHtml
  | .showHelp false => helpPlain

/-- `write_error` on an HTTP connection, `/repo/src/conn.c:286-311`; `help` are the two help pages, `/repo/src/helppage.h`. -/
def writeErr (help : Bool → Bytes) (err : Bytes) : Bytes :=
  let err := if errPrefix.isPrefixOf err then err.drop 4 else err
  if err = helpHtml then writeHttp 200 okText (help true)
  else if err = helpPlain then writeHttp 200 okText (help false)
  else if err = methodText then writeHttp 405 methodText (methodText ++ [13, 10])
  else if err = unauthorizedText then writeHttp 401 unauthorizedText (unauthorizedText ++ [13, 10])
  else if err = badRequestText then writeHttp 400 badRequestText (badRequestText ++ [13, 10])
  else writeHttp 500 internalText (errPrefix ++ err ++ [13, 10])

/-- The status text that goes with a code, `/repo/src/cmds.c:136-138, 380, 427, 645-647`. -/
def phrase (code : Nat) : Bytes := if code = 200 then okText else notFoundText

/-- The bytes written by one call on an HTTP connection. -/
def respond (help : Bool → Bytes) : W → Bytes
  | .http code body => writeHttp code (phrase code) body
  | .err m => writeErr help m.text
  | w => render [] w

/-- What is written for the data of a connection whose protocol is HTTP, `/repo/src/conn.c:113-171`; the connection is closed then (170), unless nothing is
written because more data is needed. -/
def serve (help : Bool → Bytes) (e : Env) (pw : Bytes) (other : Fn → Env → List Bytes → Prog (List W)) (data : Bytes) : Prog Bytes :=
  match parseHttp pw data with
  | .more => .ret []
  | .err x => .ret (writeErr help x.text)
  | .got args => (evcommand e pw other args ⟨true⟩).map fun r => (r.1.map (respond help)).flatten

/-! ### Specification: how a client reads a response -/

/-- A line ended by CR LF, and what follows. -/
def line : Bytes → Option (Bytes × Bytes)
  | [] => none
  | b :: s => if b = 13 ∧ s.head? = some 10 then some ([], s.tail) else (line s).map fun x => (b :: x.1, x.2)

/-- Lines up to an empty line, and what follows. -/
def fieldLines : Nat → Bytes → Option (List Bytes × Bytes)
  | 0, _ => none
  | n + 1, s =>
    (line s).bind fun x => if x.1 = [] then some ([], x.2) else (fieldLines n x.2).map fun y => (x.1 :: y.1, y.2)

/-- A number made of digits. -/
def number (t : Bytes) : Option Nat := if t ≠ [] ∧ t.all isDigit then some (decimal t) else none

/-- Reading a response up to the end of the connection: version 1.1, a code, fields among which one gives the length, and as many bytes as announced: code and body. -/
def readResponse (s : Bytes) : Option (Nat × Bytes) :=
  (line s).bind fun status =>
    if version11.isPrefixOf status.1 then
      (number (((status.1.drop 9).takeWhile (· ≠ 32)))).bind fun code =>
        (fieldLines s.length status.2).bind fun x =>
          match x.1.filter fun f => (lengthField.isPrefixOf f) with
          | [f] => if number (f.drop 16) = some x.2.length then some (code, x.2) else none
          | _ => none
    else none

/-! ### Reading what was written -/

theorem line_exact (l s : Bytes) (h : (13 : UInt8) ∉ l) : line (l ++ 13 :: 10 :: s) = some (l, s) := by
  induction l with
  | nil => simp [line]
  | cons b l ih =>
    have hb : b ≠ 13 := by rintro rfl; exact h (by simp)
    rw [List.cons_append, line, if_neg (by simp [hb]), ih (fun hc => h (by simp [hc]))]
    rfl

theorem number_u64toa (n : Nat) : number (u64toa n) = some n := by
  unfold number
  rw [if_pos ⟨u64toa_ne_nil n, List.all_eq_true.2 (u64toa_digits n)⟩]
  congr 1
  rw [← digitsVal_eq_decimal, digitsVal_u64toa]

theorem digit_ne {b : UInt8} (h : isDigit b = true) : b ≠ 13 ∧ b ≠ 32 := by
  constructor <;> (rintro rfl; revert h; decide)

/-- A written response is read as it was meant, whatever the body. -/
theorem read_written (code : Nat) (status body : Bytes) (hs : (13 : UInt8) ∉ status) : readResponse (writeHttp code status body) = some (code, body) := by
  have hd : ∀ n, (13 : UInt8) ∉ u64toa n := fun n hc => (digit_ne (u64toa_digits n _ hc)).1 rfl
  have h1 : writeHttp code status body = (version11 ++ u64toa code ++ [32] ++ status) ++ 13 :: 10 ::
      ((lengthField ++ u64toa body.length) ++ 13 :: 10 :: (closeField ++ 13 :: 10 :: ([] ++ 13 :: 10 :: body))) := by
    simp [writeHttp]
  obtain ⟨n, hn⟩ : ∃ n, (writeHttp code status body).length = n + 3 := ⟨(writeHttp code status body).length - 3, by
    have : 3 ≤ (writeHttp code status body).length := by rw [h1]; simp [version11]
    omega⟩
  unfold readResponse
  rw [hn, h1, line_exact]
  · simp only [Option.bind_some]
    rw [if_pos (by simp [List.append_assoc])]
    have hw : ((version11 ++ u64toa code ++ [32] ++ status).drop 9).takeWhile (· ≠ 32) = u64toa code := by
      have h2 : (version11 ++ u64toa code ++ [32] ++ status).drop 9 = u64toa code ++ ([32] ++ status) := by
        rw [List.append_assoc, List.append_assoc]; rfl
      rw [h2, List.takeWhile_append_of_pos (by intro b hb; simpa using (digit_ne (u64toa_digits code b hb)).2)]
      simp
    rw [hw, number_u64toa]
    simp only [Option.bind_some]
    rw [fieldLines, line_exact _ _ (by simp [hd]; decide)]
    simp only [Option.bind_some]
    rw [if_neg (by simp [lengthField])]
    rw [fieldLines, line_exact _ _ (by decide)]
    simp only [Option.bind_some]
    rw [if_neg (by simp [closeField])]
    rw [fieldLines, line_exact _ _ (by simp)]
    simp only [Option.bind_some, if_true, Option.map_some]
    have : ([lengthField ++ u64toa body.length, closeField].filter fun f => lengthField.isPrefixOf f) = [lengthField ++ u64toa body.length] := by
      rw [List.filter_cons_of_pos (by simp), List.filter_cons_of_neg (by decide)]
      rfl
    simp only [this]
    rw [show (lengthField ++ u64toa body.length).drop 16 = u64toa body.length from rfl, number_u64toa, if_pos rfl]
  · simp [hd, hs]
    decide

/-- Any error is a response; errors of commands have code 500. -/
theorem read_err (help : Bool → Bytes) (t : Bytes) : ∃ code body, readResponse (writeErr help t) = some (code, body) := by
  unfold writeErr
  simp only []
  split
  · split
    · exact ⟨_, _, read_written _ _ _ (by decide)⟩
    split
    · exact ⟨_, _, read_written _ _ _ (by decide)⟩
    split
    · exact ⟨_, _, read_written _ _ _ (by decide)⟩
    split
    · exact ⟨_, _, read_written _ _ _ (by decide)⟩
    split <;> exact ⟨_, _, read_written _ _ _ (by decide)⟩
  · split
    · exact ⟨_, _, read_written _ _ _ (by decide)⟩
    split
    · exact ⟨_, _, read_written _ _ _ (by decide)⟩
    split
    · exact ⟨_, _, read_written _ _ _ (by decide)⟩
    split
    · exact ⟨_, _, read_written _ _ _ (by decide)⟩
    split <;> exact ⟨_, _, read_written _ _ _ (by decide)⟩

/-- Errors of commands. -/
theorem read_cmd_err (help : Bool → Bytes) (m : ErrMsg) (h : m.quotes = none) : ∃ body, readResponse (writeErr help m.text) = some (500, body) := by
  have : ∀ t : Bytes, t ≠ helpHtml → t ≠ helpPlain → t ≠ methodText → t ≠ unauthorizedText → t ≠ badRequestText →
      (if errPrefix.isPrefixOf m.text then m.text.drop 4 else m.text) = t → ∃ body, readResponse (writeErr help m.text) = some (500, body) := by
    intro t h1 h2 h3 h4 h5 ht
    refine ⟨errPrefix ++ t ++ [13, 10], ?_⟩
    unfold writeErr
    simp only [ht]
    rw [if_neg h1, if_neg h2, if_neg h3, if_neg h4, if_neg h5]
    exact read_written _ _ _ (by decide)
  cases m
  case unknownCommand => cases h
  case unknownType => cases h
  all_goals exact this _ (by decide) (by decide) (by decide) (by decide) (by decide) rfl

/-! ### The commands -/

/-- The arguments that a request may give. -/
theorem parse_args {pw data : Bytes} {args : List Bytes} (h : parseHttp pw data = .got args) :
    ∃ method path body q html, toArgs method path body q html = .ok args := by
  unfold parseHttp at h
  split at h
  · cases h
  split at h
  · cases h
  split at h
  · cases h
  split at h
  · cases h
  split at h
  · rename_i r hr
    subst h
    exfalso
    have : ∀ (f : Nat) (s : Bytes) (x : Hdrs), headers f s x ≠ .inl (.got args) := by
      intro f
      induction f with
      | zero => intro s x; simp [headers]
      | succ f ih =>
        intro s x hc
        unfold headers at hc
        split at hc
        · cases hc
        split at hc
        · cases hc
        split at hc
        · cases hc
        split at hc
        · cases hc
        split at hc
        · cases hc
        · cases hc
        · cases hc
        · exact ih _ _ hc
    exact this _ _ _ hr
  · unfold readBody at h
    split at h
    · cases h
    split at h
    · simp only [] at h
      split at h
      · cases h
      · rename_i hok
        split at h
        · cases h
          exact ⟨_, _, _, _, _, hok⟩
        · cases h
    · cases h

/-- The options of a PUT. -/
def putOpts (q : Query) : List Bytes :=
  (match q.cas with | some c => [[99, 97, 115], c] | none => []) ++
      (match q.ex with | some c => [[101, 120], c] | none => []) ++
      (match q.flags with | some c => [[102, 108, 97, 103, 115], c] | none => []) ++
      (if q.xx then [[120, 120]] else []) ++ (if q.nx then [[110, 120]] else [])

theorem toArgs_cases {method path body : Bytes} {q : Query} {html : Bool} {args : List Bytes} (h : toArgs method path body q html = .ok args) :
    args = [getName, path] ∨ args = setName :: path :: body :: putOpts q ∨ args = [delName, path] := by
  unfold toArgs at h
  split at h
  · split at h
    · cases h
    split at h
    · cases h
    split at h
    · cases h
    · cases h; exact Or.inl rfl
  split at h
  · split at h
    · cases h
    split at h
    · cases h
    · cases h
      refine Or.inr (Or.inl ?_)
      cases q with
      | mk ex flags cas auth xx nx => cases ex <;> cases flags <;> cases cas <;> simp [putOpts, setName]
  split at h
  · split at h
    · cases h
    split at h
    · cases h
    · cases h; exact Or.inr (Or.inr rfl)
  · cases h

/-- Reading options leaves `get` alone. -/
def KeepsGet (e : Env) (ws : List Bytes) : Prop :=
  ∀ rest a, (∃ m, setLoop e (ws ++ rest) a = .error m) ∨ setLoop e (ws ++ rest) a = .ok none ∨
    ∃ a', a'.get = a.get ∧ setLoop e (ws ++ rest) a = setLoop e rest a'

theorem KeepsGet.nil {e : Env} : KeepsGet e [] := fun _ a => Or.inr (Or.inr ⟨a, rfl, rfl⟩)

theorem KeepsGet.app {e : Env} {ws ws' : List Bytes} (h : KeepsGet e ws) (h' : KeepsGet e ws') : KeepsGet e (ws ++ ws') := by
  intro rest a
  rw [List.append_assoc]
  rcases h (ws' ++ rest) a with h1 | h1 | ⟨a1, h1, h2⟩
  · exact Or.inl h1
  · exact Or.inr (Or.inl h1)
  · rw [h2]
    rcases h' rest a1 with h3 | h3 | ⟨a2, h3, h4⟩
    · exact Or.inl h3
    · exact Or.inr (Or.inl h3)
    · exact Or.inr (Or.inr ⟨a2, h3.trans h1, h4⟩)

theorem keeps_cas {e : Env} {c : Bytes} : KeepsGet e [[99, 97, 115], c] := by
  intro rest a
  simp only [List.cons_append, List.nil_append]
  rw [setLoop]
  simp only [argeq_spells (by decide) (spells_self (low := [99, 97, 115]))]
  cases h : parseU64 c with
  | none => left; simp
  | some y => right; right; exact ⟨{ a with cas := y, withcas := true }, rfl, by simp⟩

theorem keeps_flags {e : Env} {c : Bytes} : KeepsGet e [[102, 108, 97, 103, 115], c] := by
  intro rest a
  simp only [List.cons_append, List.nil_append]
  rw [setLoop]
  simp only [argeq_spells (by decide) (spells_self (low := [102, 108, 97, 103, 115]))]
  cases h : parseU64 c with
  | none => left; simp
  | some y => right; right; exact ⟨{ a with flags := y % 2 ^ 32 }, rfl, by simp⟩

theorem keeps_ex {e : Env} {c : Bytes} : KeepsGet e [[101, 120], c] := by
  intro rest a
  simp only [List.cons_append, List.nil_append]
  rw [setLoop]
  simp only [argeq_spells (by decide) (spells_self (low := [101, 120]))]
  cases h : parseEx e .ex c with
  | error m => left; simp
  | ok x =>
    cases x with
    | none => right; left; simp
    | some y => right; right; exact ⟨{ a with expires := y, hasex := true }, rfl, by simp⟩

theorem keeps_xx {e : Env} : KeepsGet e [[120, 120]] := fun rest a =>
  Or.inr (Or.inr ⟨{ a with xx := true }, rfl, reads_word (o := .xx) (spells_self (low := [120, 120])) (by simp) rest a⟩)

theorem keeps_nx {e : Env} : KeepsGet e [[110, 120]] := fun rest a =>
  Or.inr (Or.inr ⟨{ a with nx := true }, rfl, reads_word (o := .nx) (spells_self (low := [110, 120])) (by simp) rest a⟩)

theorem keeps_put {e : Env} (q : Query) : KeepsGet e (putOpts q) := by
  unfold putOpts
  refine .app (.app (.app (.app ?_ ?_) ?_) ?_) ?_
  · cases q.cas <;> first | exact .nil | exact keeps_cas
  · cases q.ex <;> first | exact .nil | exact keeps_ex
  · cases q.flags <;> first | exact .nil | exact keeps_flags
  · cases q.xx <;> first | exact .nil | exact keeps_xx
  · cases q.nx <;> first | exact .nil | exact keeps_nx

variable {env : Spec.Env} {I : Spec.State → Spec.State → Prop} {oom : Bool} {e : Env} {pw : Bytes}
  {other : Fn → Env → List Bytes → Prog (List W)} {help : Bool → Bytes}

/-- One response: a code and a body, or an error. -/
def OneHttp (out : List W) : Prop := (∃ c b, out = [.http c b]) ∨ ∃ m, out = [.err m]

theorem one_read {out : List W} (h : OneHttp out) : ∃ code body, readResponse (out.map (respond help)).flatten = some (code, body) := by
  rcases h with ⟨c, b, rfl⟩ | ⟨m, rfl⟩
  · refine ⟨c, b, ?_⟩
    simp only [List.map_cons, List.map_nil, List.flatten_cons, List.flatten_nil, List.append_nil, respond]
    refine read_written _ _ _ ?_
    unfold phrase
    split <;> decide
  · simpa [respond] using read_err help m.text

theorem http_set_one {name key val : Bytes} (hc : Clocks e) (hp : e.proto = .http) (q : Query) :
    Always env oom e.now OneHttp (cmdSET e (name :: key :: val :: putOpts q)) := by
  have hk := keeps_put (e := e) q [] ⟨0, false, false, false, false, false, 0, 0, false⟩
  rw [List.append_nil] at hk
  have hs : ∀ r, setLoop e (putOpts q) ⟨0, false, false, false, false, false, 0, 0, false⟩ = .ok r → _ := fun r => setLoop_some hc (putOpts q) (by simp)
  unfold cmdSET
  simp only []
  rcases hk with ⟨m, hk⟩ | hk | ⟨a, ha, hk⟩
  · rw [hk]
    exact .ret (Or.inr ⟨_, rfl⟩)
  · obtain ⟨z, hz, _⟩ := hs _ hk
    cases hz
  · obtain ⟨z, hz, h0⟩ := hs (some a) (by rw [hk, setLoop])
    cases hz
    rw [hk, setLoop]
    simp only []
    rw [if_neg (by omega)]
    refine .ite (fun _ => .ret (Or.inr ⟨_, rfl⟩)) fun _ => .ite (fun _ => .ret (Or.inr ⟨_, rfl⟩)) fun _ => ?_
    unfold execSET
    refine .call fun s r s' hr => .ret ?_
    have hsh := store_shown hr
    unfold setReply
    by_cases hn : r.status = .nomem
    · rw [if_pos hn, hsh.1 hn]
      exact Or.inr ⟨_, rfl⟩
    · rw [if_neg hn, if_neg (by rw [ha]; simp)]
      simp only [hp]
      split <;> exact Or.inl ⟨_, _, rfl⟩

theorem http_get_one {name key : Bytes} (hp : e.proto = .http) : Always env oom e.now OneHttp (cmdGET e [name, key]) := by
  unfold cmdGET
  refine .call fun s r s' hr => ?_
  rcases (load_step hr).2 with ⟨_, rfl⟩ | ⟨it, _, rfl⟩
  · rw [if_neg (by rw [hp]; decide), if_pos rfl, if_pos hp]
    exact .ret (Or.inl ⟨_, _, rfl⟩)
  · rw [if_neg (by rw [hp]; decide), if_neg (by simp)]
    exact .ret (Or.inl ⟨200, it.value, by simp [getEntry, hp]⟩)

theorem http_del_one {name key : Bytes} (hp : e.proto = .http) : Always env oom e.now OneHttp (cmdDEL e [name, key]) := by
  unfold cmdDEL delLoop delLoop
  refine .call fun s r s' hr => ?_
  simp only [hp]
  refine .ret (Or.inl ?_)
  split <;> split <;> exact ⟨_, _, rfl⟩

/-- **C76**, one response.  For all byte strings, states and interference: as soon as the data on an HTTP connection is enough, what is written is exactly one response that a
client can read, with a body as long as announced. -/
theorem http_one_response (hc : Clocks e) (hp : e.proto = .http) {data : Bytes} (hm : parseHttp pw data ≠ .more) {s s' : Spec.State} {bytes : Bytes}
    (h : Runs env I oom e.now (serve help e pw other data) s bytes s') : ∃ code body, readResponse bytes = some (code, body) := by
  unfold serve at h
  cases hd : parseHttp pw data with
  | more => exact absurd hd hm
  | err x =>
    rw [hd] at h
    rw [(runs_ret h).1]
    exact read_err _ _
  | got args =>
    rw [hd] at h
    obtain ⟨⟨out, st'⟩, h1, rfl⟩ := runs_map h
    obtain ⟨method, path, body, q, html, hok⟩ := parse_args hd
    refine one_read ?_
    have hx : Executes env I oom e pw other args s out s' := ⟨st', h1⟩
    rcases toArgs_cases hok with rfl | rfl | rfl
    · rw [executes_iff spells_self (by decide : (getName, Fn.cmdGET) ∈ cmds) rfl] at hx
      exact http_get_one hp _ _ _ _ hx
    · rw [executes_iff spells_self (by decide : (setName, Fn.cmdSET) ∈ cmds) rfl] at hx
      exact http_set_one hc hp q _ _ _ _ hx
    · rw [executes_iff spells_self (by decide : (delName, Fn.cmdDEL) ∈ cmds) rfl] at hx
      exact http_del_one hp _ _ _ _ hx

/-- The request may be executed: no password is configured and none given, or the right one is given. -/
def Request.Allowed (r : Request) (pw : Bytes) : Prop := (pw ≠ [] ∧ r.Gives pw) ∨ (pw = [] ∧ r.Anonymous)

theorem serve_command {r : Request} (hr : r.Ok) (ha : r.Allowed pw) (extra : Bytes) {s s' : Spec.State} {bytes : Bytes}
    (h : Runs env I oom e.now (serve help e pw other (r.wire ++ extra)) s bytes s') :
    ∃ out, Executes env I oom e pw other r.command s out s' ∧ bytes = (out.map (respond help)).flatten := by
  unfold serve at h
  rw [(http_request_exact r hr pw extra).1 ha] at h
  obtain ⟨⟨out, st'⟩, h1, rfl⟩ := runs_map h
  exact ⟨out, ⟨st', h1⟩, rfl⟩

theorem read_one (code : Nat) (body : Bytes) : readResponse ([W.http code body].map (respond help)).flatten = some (code, body) := by
  simp only [List.map_cons, List.map_nil, List.flatten_cons, List.flatten_nil, List.append_nil, respond]
  refine read_written _ _ _ ?_
  unfold phrase
  split <;> decide

/-- **C76**, passwords.  Without the right password, every well-formed request is answered by 401, and nothing is changed. -/
theorem http_refused {r : Request} (hr : r.Ok) (hpw : pw ≠ []) (hg : ¬ r.Gives pw) (extra : Bytes) {s s' : Spec.State} {bytes : Bytes}
    (h : Runs env I oom e.now (serve help e pw other (r.wire ++ extra)) s bytes s') :
    readResponse bytes = some (401, unauthorizedText ++ [13, 10]) ∧ s' = s := by
  unfold serve at h
  rw [(http_request_exact r hr pw extra).2 ⟨hpw, hg⟩] at h
  obtain ⟨rfl, rfl⟩ := runs_ret h
  exact ⟨read_written 401 unauthorizedText (unauthorizedText ++ [13, 10]) (by decide), rfl⟩

/-- **C76**, GET.  For all keys, values (any bytes), parameters and header fields: the client reads code 200 and exactly the value stored, or 404 if there is none; nothing is changed. -/
theorem http_get_exact (hp : e.proto = .http) {r : Request} (hr : r.Ok) (hm : r.method = .get) (ha : r.Allowed pw) (extra : Bytes)
    {s s' : Spec.State} {bytes : Bytes} (h : Runs env I oom e.now (serve help e pw other (r.wire ++ extra)) s bytes s') :
    I s s' ∧ readResponse bytes = match s'.dict.get e.now r.key with
      | some it => some (200, it.value)
      | none => some (404, notFoundText ++ [13, 10]) := by
  obtain ⟨out, hx, rfl⟩ := serve_command hr ha extra h
  unfold Request.command at hx
  rw [hm] at hx
  replace hx : Executes env I oom e pw other [getName, r.key] s out s' := hx
  rw [executes_iff spells_self (by decide : (getName, Fn.cmdGET) ∈ cmds) rfl] at hx
  unfold cmdGET at hx
  obtain ⟨s1, rr, s2, h1, h2, h3⟩ := runs_call hx
  rw [if_neg (show ¬ e.proto = .postgres by rw [hp]; decide)] at h3
  obtain ⟨rfl, ⟨h4, rfl⟩ | ⟨it, h4, rfl⟩⟩ := load_step h2
  · rw [if_pos rfl] at h3
    obtain ⟨rfl, rfl⟩ := runs_ret h3
    rw [h4, if_pos hp]
    exact ⟨h1, read_one 404 _⟩
  · rw [if_neg (by simp)] at h3
    obtain ⟨rfl, rfl⟩ := runs_ret h3
    rw [h4]
    refine ⟨h1, ?_⟩
    have : [(r.key, it)].flatMap (getEntry e .get) = [W.http 200 it.value] := by simp [getEntry, hp]
    rw [this]
    exact read_one 200 _

/-- **C76**, DELETE.  Code 200 and the key is gone, or 404 if there is none; no other key changes. -/
theorem http_delete_exact (hp : e.proto = .http) {r : Request} (hr : r.Ok) (hm : r.method = .delete) (ha : r.Allowed pw) (extra : Bytes)
    {s s' : Spec.State} {bytes : Bytes} (h : Runs env I oom e.now (serve help e pw other (r.wire ++ extra)) s bytes s') :
    ∃ s1, I s s1 ∧
      ((s1.dict.get e.now r.key = none ∧ s'.dict = s1.dict ∧ ∃ body, readResponse bytes = some (404, body)) ∨
       (s1.dict.get e.now r.key ≠ none ∧ s'.dict = update s1.dict r.key none ∧ ∃ body, readResponse bytes = some (200, body))) := by
  obtain ⟨out, hx, rfl⟩ := serve_command hr ha extra h
  unfold Request.command at hx
  rw [hm] at hx
  replace hx : Executes env I oom e pw other [delName, r.key] s out s' := hx
  rw [executes_iff spells_self (by decide : (delName, Fn.cmdDEL) ∈ cmds) rfl] at hx
  unfold cmdDEL delLoop delLoop at hx
  simp only [hp] at hx
  obtain ⟨s1, rr, s2, h1, h2, h3⟩ := runs_call hx
  obtain ⟨rfl, rfl⟩ := runs_ret h3
  refine ⟨s1, h1, ?_⟩
  cases hg : s1.dict.get e.now r.key with
  | none =>
    simp [Spec.Step, hg] at h2
    obtain ⟨rfl, rfl⟩ := h2
    exact Or.inl ⟨rfl, rfl, _, read_one 404 _⟩
  | some it =>
    simp [Spec.Step, hg] at h2
    obtain ⟨rfl, rfl⟩ := h2
    exact Or.inr ⟨by simp, rfl, _, read_one 200 _⟩

/-- The parameter of the request with one of the names, if any, denotes the number. -/
def Request.Number {α : Type} (r : Request) (names : List Bytes) (P : Bytes → α → Prop) : Option α → Prop
  | none => r.param names = none
  | some n => ∃ t, r.param names = some t ∧ P t n

/-- What a PUT asks for: token, seconds to live, flags, and whether the key must (not) exist. -/
def asked (now : Int) (token : Option Nat) (ttl : Option Int) (flags : Option Nat) (xx nx : Bool) : List Opt :=
  (token.map Opt.cas).toList ++ (ttl.map fun x => Opt.expire (fromNow now x 1000000000)).toList ++ (flags.map Opt.flags).toList ++
    (if xx then [.xx] else []) ++ (if nx then [.nx] else [])

/-- The parameters of a PUT that are numbers. -/
structure Request.Asks (r : Request) (token : Option Nat) (ttl : Option Int) (flags : Option Nat) : Prop where
  tok : r.Number [[99, 97, 115]] (fun t n => NatArg t n ∧ n < 2 ^ 64) token
  sec : r.Number [[101, 120], [116, 116, 108]] (fun t x => IntArg t x ∧ 0 < x) ttl
  fla : r.Number [[102, 108, 97, 103, 115]] (fun t n => NatArg t n ∧ n < 2 ^ 32) flags

/-- The words of the options. -/
theorem asks_written {r : Request} {now : Int} {token : Option Nat} {ttl : Option Int} {flags : Option Nat} (h : r.Asks token ttl flags) :
    ∃ wss, List.Forall₂ (Written now) (asked now token ttl flags (r.has [120, 120]) (r.has [110, 120])) wss ∧ opt [99, 97, 115] (r.param [[99, 97, 115]]) ++
      opt [101, 120] (r.param [[101, 120], [116, 116, 108]]) ++ opt [102, 108, 97, 103, 115] (r.param [[102, 108, 97, 103, 115]]) ++
      (if r.has [120, 120] then [[120, 120]] else []) ++ (if r.has [110, 120] then [[110, 120]] else []) = wss.flatten := by
  obtain ⟨h1, h2, h3⟩ := h
  unfold asked
  have app : ∀ {a b : List Opt} {x y : List Bytes}, (∃ wss, List.Forall₂ (Written now) a wss ∧ x = wss.flatten) →
      (∃ wss, List.Forall₂ (Written now) b wss ∧ y = wss.flatten) → ∃ wss, List.Forall₂ (Written now) (a ++ b) wss ∧ x ++ y = wss.flatten := by
    rintro a b x y ⟨w1, g1, rfl⟩ ⟨w2, g2, rfl⟩
    exact ⟨w1 ++ w2, List.rel_append g1 g2, by simp⟩
  refine app (app (app (app ?_ ?_) ?_) ?_) ?_
  · cases token with
    | none => exact ⟨[], .nil, by rw [show r.param [[99, 97, 115]] = none from h1]; rfl⟩
    | some n =>
      obtain ⟨t, g1, g2, g3⟩ := h1
      exact ⟨[[[99, 97, 115], t]], .cons (Written.cas spells_self g2 g3) .nil, by rw [g1]; rfl⟩
  · cases ttl with
    | none => exact ⟨[], .nil, by rw [show r.param [[101, 120], [116, 116, 108]] = none from h2]; rfl⟩
    | some n =>
      obtain ⟨t, g1, g2, g3⟩ := h2
      exact ⟨[[[101, 120], t]], .cons (Written.ex spells_self g2 g3) .nil, by rw [g1]; rfl⟩
  · cases flags with
    | none => exact ⟨[], .nil, by rw [show r.param [[102, 108, 97, 103, 115]] = none from h3]; rfl⟩
    | some n =>
      obtain ⟨t, g1, g2, g3⟩ := h3
      exact ⟨[[[102, 108, 97, 103, 115], t]], .cons (Written.flags spells_self g2 g3) .nil, by rw [g1]; rfl⟩
  · by_cases c : r.has [120, 120] = true
    · rw [if_pos c, if_pos c]; exact ⟨[[[120, 120]]], .cons (Written.xx spells_self) .nil, rfl⟩
    · rw [if_neg c, if_neg c]; exact ⟨[], .nil, rfl⟩
  · by_cases c : r.has [110, 120] = true
    · rw [if_pos c, if_pos c]; exact ⟨[[[110, 120]]], .cons (Written.nx spells_self) .nil, rfl⟩
    · rw [if_neg c, if_neg c]; exact ⟨[], .nil, rfl⟩

theorem asked_facts (now : Int) (token : Option Nat) (ttl : Option Int) (flags : Option Nat) (xx nx : Bool) :
    Opt.get ∉ asked now token ttl flags xx nx ∧ Opt.keepttl ∉ asked now token ttl flags xx nx ∧
    (Opt.xx ∈ asked now token ttl flags xx nx ↔ xx = true) ∧ (Opt.nx ∈ asked now token ttl flags xx nx ↔ nx = true) ∧
    (deadlineOf (asked now token ttl flags xx nx)).getD 0 = ((ttl.map fun x => fromNow now x 1000000000).getD 0) ∧
    flagsOf (asked now token ttl flags xx nx) = flags.getD 0 := by
  unfold asked deadlineOf flagsOf
  cases token <;> cases ttl <;> cases flags <;> cases xx <;> cases nx <;>
    exact ⟨by simp, by simp, by simp, by simp, rfl, rfl⟩

/-- **C76**, PUT.  For all keys, bodies, parameters in any order and header fields: if both `nx` and `xx` are asked for the answer is 500 and nothing changes; otherwise the body is stored exactly if
the parameters allow (code 200), with the flags and the deadline they state; code 404 means that nothing was changed, because the parameters forbid it; code 500 only that there was no
memory. -/
theorem http_put_exact (hp : e.proto = .http) (hnow : IsI64 e.now) (h0 : 0 < e.now) {r : Request} (hr : r.Ok) (hm : r.method = .put)
    (ha : r.Allowed pw) (extra : Bytes) {token : Option Nat} {ttl : Option Int} {flags : Option Nat} (ho : r.Asks token ttl flags)
    {s s' : Spec.State} {bytes : Bytes} (h : Runs env I oom e.now (serve help e pw other (r.wire ++ extra)) s bytes s') :
    (r.has [110, 120] = true ∧ r.has [120, 120] = true → (∃ body, readResponse bytes = some (500, body)) ∧ s' = s) ∧
    (¬ (r.has [110, 120] = true ∧ r.has [120, 120] = true) → ∃ s1, I s s1 ∧
      (((oom = true ∨ (e.lowmem = true ∧ env.noevict = true)) ∧ (∃ body, readResponse bytes = some (500, body)) ∧ s'.dict = s1.dict) ∨
       (Refused env.usecas (asked e.now token ttl flags (r.has [120, 120]) (r.has [110, 120])) (s1.dict.get e.now r.key) ∧ (∃ body, readResponse bytes = some (404, body)) ∧ s'.dict = s1.dict) ∨
       (¬ Refused env.usecas (asked e.now token ttl flags (r.has [120, 120]) (r.has [110, 120])) (s1.dict.get e.now r.key) ∧ (∃ body, readResponse bytes = some (200, body)) ∧
        ∃ c, Stored e.lowmem r.key ⟨r.body, ((ttl.map fun x => fromNow e.now x 1000000000).getD 0), flags.getD 0, c⟩ s1 s'))) := by
  obtain ⟨out, hx, rfl⟩ := serve_command hr ha extra h
  obtain ⟨wss, hw, hflat⟩ := asks_written ho
  unfold Request.command at hx
  rw [hm] at hx
  simp only [] at hx
  have hcmd : [[115, 101, 116], r.key, r.body] ++ opt [99, 97, 115] (r.param [[99, 97, 115]]) ++
      opt [101, 120] (r.param [[101, 120], [116, 116, 108]]) ++ opt [102, 108, 97, 103, 115] (r.param [[102, 108, 97, 103, 115]]) ++
      (if r.has [120, 120] then [[120, 120]] else []) ++ (if r.has [110, 120] then [[110, 120]] else []) = setName :: r.key :: r.body :: wss.flatten := by
    rw [← hflat]; simp [setName]
  rw [hcmd] at hx
  have hpm : e.proto ≠ .memcache := by rw [hp]; decide
  have hd := deadlines_pos h0 hw
  rw [executes_iff spells_self (by decide : (setName, Fn.cmdSET) ∈ cmds) rfl,
    cmdSET_opts (hw.imp fun _ _ h => written_reads hpm hnow h0 h) (flags_ok hw) hd] at hx
  obtain ⟨hget, hkeep, hxx, hnx, hdl, hfl⟩ := asked_facts e.now token ttl flags (r.has [120, 120]) (r.has [110, 120])
  generalize asked e.now token ttl flags (r.has [120, 120]) (r.has [110, 120]) = os at *
  have hc1 : ¬ ((collect os).keepttl = true ∧ (collect os).hasex = true) := by simp [collect, hkeep]
  have hc2 : ((collect os).xx = true ∧ (collect os).nx = true) ↔ (r.has [110, 120] = true ∧ r.has [120, 120] = true) := by
    simp only [collect, decide_eq_true_eq]; rw [hxx, hnx]; exact and_comm
  have h500 : ∀ m : ErrMsg, m.quotes = none → ∃ body, readResponse ([W.err m].map (respond help)).flatten = some (500, body) := by
    intro m hq
    simpa [respond] using read_cmd_err help m hq
  rw [if_neg hc1] at hx
  constructor
  · intro hcon
    rw [if_pos (hc2.2 hcon)] at hx
    obtain ⟨rfl, rfl⟩ := runs_ret hx
    exact ⟨h500 _ rfl, rfl⟩
  · intro hcon
    rw [if_neg (fun hc => hcon (hc2.1 hc))] at hx
    unfold execSET at hx
    obtain ⟨s1, rr, s2, h1, h2, h3⟩ := runs_call hx
    obtain ⟨rfl, rfl⟩ := runs_ret h3
    refine ⟨s1, h1, ?_⟩
    have hgf : (collect os).get = false := by simp [collect, hget]
    rcases set_step hd (fun it hit => visible_nonneg h0 hit) h2 with ⟨a1, rfl, a3⟩ | ⟨a1, rfl, a3⟩ | ⟨a1, a2, a3, c, a4⟩
    · exact Or.inl ⟨a1, by simpa [setReply] using h500 _ rfl, a3⟩
    · refine Or.inr (Or.inl ⟨a1, ⟨notFoundText ++ [13, 10], ?_⟩, a3⟩)
      rw [setReply, if_neg (by split <;> simp), hgf, if_neg (by simp)]
      simp only [hp]
      rw [if_neg (by split <;> simp)]
      exact read_one 404 _
    · refine Or.inr (Or.inr ⟨a1, ⟨[83, 116, 111, 114, 101, 100, 13, 10], ?_⟩, c, ?_⟩)
      · rw [setReply, a2, if_neg (by split <;> simp), hgf, if_neg (by simp)]
        simp only [hp]
        rw [if_pos (by split <;> simp)]
        exact read_one 200 _
      · rw [hfl] at a4
        have : newDeadline os (s1.dict.get e.now r.key) = ((ttl.map fun x => fromNow e.now x 1000000000).getD 0) := by
          unfold newDeadline
          cases s1.dict.get e.now r.key with
          | none => exact hdl
          | some it => simp only []; rw [if_neg hkeep]; exact hdl
        rw [this] at a4
        exact a4

/-! ### Examples -/

/-- GET, DELETE or PUT of the key `k`, with the parameters and a body. -/
def request (m : Method) (ps : List Param) (body : Bytes) : Request :=
  ⟨m, [107], ps, 49, [⟨[72, 111, 115, 116], 1, [120]⟩, ⟨[99, 111, 110, 116, 101, 110, 116, 45, 76, 101, 110, 103, 116, 104], 0, u64toa body.length⟩], body⟩

theorem request_ok (m : Method) (ps : List Param) (hps : ∀ p ∈ ps, p.Ok) : (request m ps [13, 10]).Ok := by
  have hsp : Spells [99, 111, 110, 116, 101, 110, 116, 45, 76, 101, 110, 103, 116, 104] contentLength := (spells_iff _ _ (by decide)).2 (by decide)
  refine ⟨show Key [107] from ⟨by decide, by decide, by decide⟩, hps, show 48 ≤ (49 : UInt8).toNat by decide, show (49 : UInt8).toNat ≤ 57 by decide, by simp [request], ?_,
    show ([13, 10] : Bytes).length ≤ 536870912 by decide, ?_, Or.inl ⟨_, List.mem_cons_of_mem _ (List.mem_cons_self ..), hsp⟩⟩
  · intro f hf
    simp only [request, List.mem_cons, List.not_mem_nil, or_false] at hf
    rcases hf with rfl | rfl
    · exact ⟨by simp, by decide, by decide, by decide⟩
    · exact ⟨by simp, by decide, by decide, by decide⟩
  · intro f hf hs
    simp only [request, List.mem_cons, List.not_mem_nil, or_false] at hf
    rcases hf with rfl | rfl
    · exact absurd ((spells_iff _ _ (by decide)).1 hs) (by decide)
    · exact ⟨by decide, ⟨[], [], [50], rfl, by decide, by decide, by decide, Or.inl ⟨Or.inl rfl, show (([13, 10] : Bytes).length : Int) = decimal [50] by decide⟩⟩, by decide⟩

theorem request_authField (m : Method) (ps : List Param) (body : Bytes) : (request m ps body).authField = [] := by
  unfold Request.authField request
  rw [List.filter_cons_of_neg, List.filter_cons_of_neg, List.filter_nil]
  · rfl
  · simpa using fun h => absurd ((spells_iff _ _ (by decide)).1 h) (by decide)
  · simpa using fun h => absurd ((spells_iff _ _ (by decide)).1 h) (by decide)

theorem request_allowed (m : Method) (ps : List Param) (body : Bytes) (h : (request m ps body).authParam = []) : (request m ps body).Allowed [] :=
  Or.inr ⟨rfl, h, request_authField _ _ _⟩

/-- `nx` and `ttl=9`. -/
def params : List Param := [⟨[110, 120], none⟩, ⟨[116, 116, 108], some [57]⟩]

theorem params_ok : ∀ p ∈ params, p.Ok := by
  intro p hp
  simp only [params, List.mem_cons, List.not_mem_nil, or_false] at hp
  rcases hp with rfl | rfl
  · exact ⟨by simp, by decide, by intro v hv; simp at hv⟩
  · exact ⟨by simp, by decide, by intro v hv; simp at hv; subst hv; decide⟩

/-- Hypotheses of `http_one_response` and `http_get_exact`: GET /k?nx&ttl=9, where `k` holds `x`. -/
example : (∃ s bytes s', Runs ⟨true, false, fun _ => 0⟩ busy false 5 (serve (fun _ => []) (at_ .http 5) [] noOther ((request .get params [13, 10]).wire ++ [7])) s bytes s' ∧
      s'.dict.get 5 [107] ≠ none) ∧
    Clocks (at_ .http 5) ∧ (request .get params [13, 10]).Ok ∧ (request .get params [13, 10]).Allowed [] ∧
    parseHttp [] ((request .get params [13, 10]).wire ++ [7]) ≠ .more := by
  have ha := request_allowed .get params [13, 10] (by decide)
  have hpr := (http_request_exact _ (request_ok .get params params_ok) [] [7]).1 ha
  refine ⟨⟨st1, ([W.http 200 [120]].map (respond fun _ => [])).flatten, st1, ?_, by decide⟩, by simp only [Clocks, at_, IsI64]; decide, request_ok _ _ params_ok, ha, by rw [hpr]; simp⟩
  unfold serve
  rw [hpr]
  refine runs_map_of (a := ([W.http 200 [120]], ⟨true⟩)) ?_
  rw [show (request .get params [13, 10]).command = [getName, [107]] from rfl, evcommand_known (fn := .cmdGET) spells_self (by decide)]
  refine .call (s1 := st1) (r := ⟨.found, [([107], ⟨[120], 0, 0, 1⟩)]⟩) (s2 := st1) trivial ?_ (.ret _ _)
  unfold Spec.Step
  simp only []
  rw [show st1.dict.get 5 [107] = some ⟨[120], 0, 0, 1⟩ from rfl]
  exact ⟨rfl, trivial⟩

/-- Hypotheses of `http_delete_exact`: the key is there. -/
example : (∃ s bytes s', Runs ⟨true, false, fun _ => 0⟩ busy false 5 (serve (fun _ => []) (at_ .http 5) [] noOther ((request .delete [] [13, 10]).wire ++ [])) s bytes s' ∧
      s.dict.get 5 [107] ≠ none) ∧ (request .delete [] [13, 10]).Ok ∧ (request .delete [] [13, 10]).Allowed [] := by
  have ha := request_allowed .delete [] [13, 10] (by decide)
  have hok := request_ok .delete [] (by simp)
  refine ⟨⟨st1, ([W.http 200 [68, 101, 108, 101, 116, 101, 100, 13, 10]].map (respond fun _ => [])).flatten, ⟨update st1.dict [107] none, st1.tok⟩, ?_, by decide⟩, hok, ha⟩
  unfold serve
  rw [(http_request_exact _ hok [] []).1 ha]
  refine runs_map_of (a := ([W.http 200 [68, 101, 108, 101, 116, 101, 100, 13, 10]], ⟨true⟩)) ?_
  rw [show (request .delete [] [13, 10]).command = [delName, [107]] from rfl, evcommand_known (fn := .cmdDEL) spells_self (by decide)]
  refine .call (s1 := st1) (r := ⟨.deleted, []⟩) (s2 := ⟨update st1.dict [107] none, st1.tok⟩) trivial ?_ (.ret _ _)
  simp [Spec.Step, show st1.dict.get 5 [107] = some ⟨[120], 0, 0, 1⟩ from rfl]

/-- Hypotheses of `http_put_exact`: PUT /k?nx&ttl=9 is refused, because the key is there. -/
example : (∃ s bytes s', Runs ⟨true, false, fun _ => 0⟩ busy false 5 (serve (fun _ => []) (at_ .http 5) [] noOther ((request .put params [13, 10]).wire ++ [])) s bytes s') ∧
    (request .put params [13, 10]).Ok ∧ (request .put params [13, 10]).Allowed [] ∧ (request .put params [13, 10]).Asks none (some 9) none ∧
    Refused true (asked 5 none (some 9) none false true) (some ⟨[120], 0, 0, 1⟩) ∧ ¬ Refused true (asked 5 none (some 9) none false true) none := by
  have ha := request_allowed .put params [13, 10] (by decide)
  have hok := request_ok .put params params_ok
  refine ⟨⟨st1, ([W.http 404 (notFoundText ++ [13, 10])].map (respond fun _ => [])).flatten, ⟨st1.dict, update st1.tok 0 (st1.tok 0 + 1)⟩, ?_⟩, hok, ha, ⟨show Request.param _ _ = none by decide, ⟨[57], by decide, ⟨by decide, ⟨[], [], [57], rfl, by decide, by decide, by decide, Or.inl ⟨Or.inl rfl, by decide⟩⟩,
        by unfold IsI64; decide⟩, by decide⟩, show Request.param _ _ = none by decide⟩,
    show Opt.nx ∈ _ by simp [asked], by simp [Refused, asked, tokenOf, Opt.token?]⟩
  unfold serve
  rw [(http_request_exact _ hok [] []).1 ha]
  refine runs_map_of (a := ([W.http 404 (notFoundText ++ [13, 10])], ⟨true⟩)) ?_
  rw [show (request .put params [13, 10]).command = [setName, [107], [13, 10], [101, 120], [57], [110, 120]] from rfl,
    evcommand_known (fn := .cmdSET) spells_self (by decide)]
  refine .call (s1 := st1) (r := ⟨.found, []⟩) (s2 := ⟨st1.dict, update st1.tok 0 (st1.tok 0 + 1)⟩) trivial ?_ (.ret _ _)
  unfold Spec.Step
  simp only []
  rw [show st1.dict.get 5 [107] = some ⟨[120], 0, 0, 1⟩ from rfl]
  simp

/-- Hypotheses of `http_refused`: no password is given. -/
example : (request .get params [13, 10]).Ok ∧ ¬ (request .get params [13, 10]).Gives [112] ∧
    ∃ s bytes s', Runs ⟨true, false, fun _ => 0⟩ busy false 5 (serve (fun _ => []) (at_ .http 5) [112] noOther ((request .get params [13, 10]).wire ++ [])) s bytes s' := by
  have hok := request_ok .get params params_ok
  have hg : ¬ (request .get params [13, 10]).Gives [112] := by
    unfold Request.Gives
    rw [if_neg (by decide), request_authField]
    decide
  refine ⟨hok, hg, st1, writeErr (fun _ => []) HErr.unauthorized.text, st1, ?_⟩
  unfold serve
  rw [(http_request_exact _ hok [112] []).2 ⟨by simp, hg⟩]
  exact .ret _ _

end Verif.Http
