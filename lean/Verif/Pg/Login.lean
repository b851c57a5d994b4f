import Mathlib.Tactic.Common
import Verif.Pg.Extended

/-!
C81: login of a Postgres client.
-/

namespace Verif.Pg

open Verif.Num Verif.Resp Verif.Cache Verif.Cmd
open Function (update)

/-! ### Specification -/

/-- The parameters of a startup message: names and values, each ended by NUL, and a NUL behind them. -/
def startupText (ps : List (Bytes × Bytes)) : Bytes := ps.flatMap (fun p => p.1 ++ 0 :: (p.2 ++ [0])) ++ [0]

/-- The startup message of version 3.0: length, version, parameters. -/
def startupMsg (ps : List (Bytes × Bytes)) : Bytes := be32 ((startupText ps).length + 8) ++ [0, 3, 0, 0] ++ startupText ps

/-- "client_encoding". -/
def encodingName : Bytes := [99, 108, 105, 101, 110, 116, 95, 101, 110, 99, 111, 100, 105, 110, 103]

/-- "UTF8". -/
def utf8 : Bytes := [85, 84, 70, 56]

/-- The encoding a client asks for. -/
def encodingOf (ps : List (Bytes × Bytes)) : Option Bytes := (ps.filter fun p => p.1 = encodingName).getLast?.map (·.2)

/-- Parameters as they can be sent; here, without empty values. -/
def Params (ps : List (Bytes × Bytes)) : Prop := ∀ p ∈ ps, p.1 ≠ [] ∧ p.2 ≠ [] ∧ 0 ∉ p.1 ∧ 0 ∉ p.2

/-- The password message. -/
def passwordMsg (w : Bytes) : Bytes := w ++ [0]

/-- "Parameter status" messages up to "ready": names and values. -/
def getStatus : Nat → Bytes → Option (List (Bytes × Bytes) × Bytes)
  | 0, _ => none
  | f + 1, s => (getMsg s).bind fun x =>
    if x.1 = 83 then (zstr x.2.1).bind fun k => (zstr k.2).bind fun v => if v.2 = [] then (getStatus f x.2.2).map fun y => ((k.1, v.1) :: y.1, y.2) else none
    else if x.1 = 90 ∧ x.2.1 = [73] then some ([], x.2.2)
    else none

/-- How a client reads that it is logged in: "authentication ok", the settings of the server, "ready". -/
def getLogin (s : Bytes) : Option (List (Bytes × Bytes) × Bytes) :=
  (getMsg s).bind fun x => if x.1 = 82 ∧ x.2.1 = [0, 0, 0, 0] then getStatus s.length x.2.2 else none

/-- How a client reads that it is asked for the password in plain text. -/
def getAsked (s : Bytes) : Option Bytes := (getMsg s).bind fun x => if x.1 = 82 ∧ x.2.1 = [0, 0, 0, 3] then some x.2.2 else none

/-! ### The startup message -/

theorem frame_startup {ps : List (Bytes × Bytes)} (hl : (startupText ps).length + 8 ≤ 65536) (rest : Bytes) :
    frame (startupMsg ps ++ rest) = .got (.magic 196608 (startupText ps), (startupMsg ps).length) := by
  generalize ht : startupText ps = t at hl
  have h0 : UInt8.ofNat ((t.length + 8) / 16777216) = 0 := by rw [Nat.div_eq_of_lt (by omega)]; rfl
  have hread : readI32 0 (UInt8.ofNat ((t.length + 8) / 65536 % 256)) (UInt8.ofNat ((t.length + 8) / 256 % 256)) (UInt8.ofNat ((t.length + 8) % 256)) = ((t.length + 8 : Nat) : Int) := by
    have := readI32_be32 (n := t.length + 8) (by omega)
    rwa [h0] at this
  rw [startupMsg, ht, be32]
  simp only [List.cons_append, List.nil_append]
  rw [h0, frame, hread, if_neg (by omega), if_neg (by simp only [List.length_cons, List.length_append]; omega), if_neg (by omega)]
  rw [show ((t.length + 8 : Nat) : Int).toNat - 8 = t.length from by omega, List.take_left]
  rfl

theorem startup_word {w : Bytes} (h : 0 ∉ w) (s acc : Bytes) (name : Option Bytes) (enc : Bytes) :
    startupLoop (w ++ s) acc name enc = startupLoop s (acc ++ w) name enc := by
  induction w generalizing acc with
  | nil => simp
  | cons b w ih =>
    rw [List.cons_append, startupLoop.eq_def]
    simp only []
    rw [if_neg (by rintro rfl; exact h (by simp)), ih (fun hc => h (by simp [hc]))]
    simp

theorem startup_params {ps : List (Bytes × Bytes)} (h : Params ps) (enc : Bytes) :
    startupLoop (startupText ps) [] none enc = (encodingOf ps).getD enc := by
  induction ps generalizing enc with
  | nil => rfl
  | cons p ps ih =>
    obtain ⟨n, v⟩ := p
    obtain ⟨h1, h2, h3, h4⟩ := h (n, v) (by simp)
    simp only at h1 h2 h3 h4
    have hcons : startupText ((n, v) :: ps) = n ++ (0 :: (v ++ (0 :: startupText ps))) := by simp [startupText]
    rw [hcons, startup_word h3, List.nil_append, startupLoop, if_pos rfl, if_pos h1, startup_word h4, List.nil_append, startupLoop, if_pos rfl, if_pos h2]
    rw [ih (fun p hp => h p (by simp [hp]))]
    unfold encodingOf
    by_cases hn : n = encodingName
    · rw [show ([99, 108, 105, 101, 110, 116, 95, 101, 110, 99, 111, 100, 105, 110, 103] : Bytes) = encodingName from rfl, if_pos hn, List.filter_cons_of_pos (by simpa using hn)]
      cases hf : ps.filter (fun p => decide (p.1 = encodingName)) with
      | nil => rfl
      | cons a l => rw [List.getLast?_cons_cons, List.getLast?_eq_getLast_of_ne_nil (by simp)]; rfl
    · rw [show ([99, 108, 105, 101, 110, 116, 95, 101, 110, 99, 111, 100, 105, 110, 103] : Bytes) = encodingName from rfl, if_neg hn, List.filter_cons_of_neg (by simpa using hn)]

theorem handle_startup (hash : Nat → Nat) (pw : Bytes) (pg : State) {ps : List (Bytes × Bytes)} (h : Params ps) (he : ∀ v, encodingOf ps = some v → v = utf8) :
    handle hash pw pg (.magic 196608 (startupText ps)) = .ok [] { pg with error := false, startup := true } := by
  have hl : ∀ t, startupLoop t [] none [] = [] ∨ startupLoop t [] none [] = [85, 84, 70, 56] →
      handle hash pw pg (.magic 196608 t) = .ok [] { pg with error := false, startup := true } := by
    intro t ht
    unfold handle
    simp only []
    rw [if_neg (by decide), if_pos trivial, if_neg (by rintro ⟨a, b⟩; rcases ht with ht | ht; exacts [a ht, b ht])]
  apply hl
  rw [startup_params h]
  cases hv : encodingOf ps with
  | none => exact Or.inl rfl
  | some v => exact Or.inr (he v hv)

theorem handle_startup_refused (hash : Nat → Nat) (pw : Bytes) (pg : State) {ps : List (Bytes × Bytes)} (h : Params ps) {v : Bytes} (he : encodingOf ps = some v) (hv : v ≠ utf8) :
    handle hash pw pg (.magic 196608 (startupText ps)) = .fail := by
  have hl : ∀ t, startupLoop t [] none [] ≠ [] ∧ startupLoop t [] none [] ≠ [85, 84, 70, 56] → handle hash pw pg (.magic 196608 t) = .fail := by
    intro t ht
    unfold handle
    simp only []
    rw [if_neg (by decide), if_pos trivial, if_pos ht]
  apply hl
  rw [startup_params h, he]
  refine ⟨?_, hv⟩
  unfold encodingOf at he
  cases hg : (ps.filter fun p => decide (p.1 = encodingName)).getLast? with
  | none => rw [hg] at he; cases he
  | some p =>
    rw [hg] at he
    have hp := List.mem_of_getLast? hg
    have := (h p (List.mem_of_mem_filter hp)).2.1
    simp only [Option.map_some, Option.some.injEq] at he
    rw [he] at this
    exact this

theorem handle_password (hash : Nat → Nat) (pw : Bytes) (pg : State) {w : Bytes} (h : 0 ∉ w) :
    handle hash pw pg (.typed 112 (passwordMsg w)) = if w ≠ pw then .fail else .ok [] { pg with error := false, auth := true } := by
  have hh : ∀ m, handle hash pw pg (.typed 112 m) = parsep pw { pg with error := false } m := fun _ => rfl
  rw [hh, parsep, passwordMsg, cstr_exact _ _ h]

/-! ### Reading the answers -/

theorem status_read {k v : Bytes} (hk : 0 ∉ k) (hv : 0 ∉ v) (hl : k.length + v.length < 2147483000) (f : Nat) (s : Bytes) :
    getStatus (f + 1) (sendStatus k v ++ s) = (getStatus f s).map fun y => ((k, v) :: y.1, y.2) := by
  have hm : getMsg (sendStatus k v ++ s) = some (83, k ++ [0] ++ (v ++ [0] ++ []), s) := by
    have := getMsg_written 83 (n := 4 + k.length + 1 + v.length + 1) (p := k ++ [0] ++ (v ++ [0] ++ [])) (by simp; omega) (by omega) s
    simpa [sendStatus] using this
  rw [getStatus, hm]
  simp only [Option.bind_some, if_true]
  rw [zstr_written hk]
  simp only [Option.bind_some]
  rw [zstr_written hv]
  simp

theorem status_ready (f : Nat) (s : Bytes) : getStatus (f + 1) ([90, 0, 0, 0, 5, 73] ++ s) = some ([], s) := by
  rw [getStatus, show getMsg ([90, 0, 0, 0, 5, 73] ++ s) = _ from getMsg_written 90 (n := 5) (p := [73]) rfl (by decide) s]
  rfl

/-- The settings of the server: both encodings, and the version. -/
def settings (version : Bytes) : List (Bytes × Bytes) :=
  [(encodingName, utf8), ([115, 101, 114, 118, 101, 114] ++ [95, 101, 110, 99, 111, 100, 105, 110, 103], utf8),
   ([115, 101, 114, 118, 101, 114] ++ [95, 118, 101, 114, 115, 105, 111, 110], (version ++ [32, 40, 80, 111, 103, 111, 99, 97, 99, 104, 101, 41]).take 127)]

theorem login_read (c : Conf) {pg : State} (hx : pg.execute = false) (hv : 0 ∉ c.version) (rest : Bytes) :
    getLogin ((sendReply c pg .authOk).flatten ++ rest) = some (settings c.version, rest) := by
  have hv' : 0 ∉ (c.version ++ [32, 40, 80, 111, 103, 111, 99, 97, 99, 104, 101, 41]).take 127 := by
    intro hc
    rcases List.mem_append.1 (List.mem_of_mem_take hc) with h | h
    · exact hv h
    · revert h; decide
  have hlen : ((c.version ++ [32, 40, 80, 111, 103, 111, 99, 97, 99, 104, 101, 41]).take 127).length ≤ 127 := by simp
  have hb : (sendReply c pg .authOk).flatten ++ rest = sendAuth 0 ++ (sendStatus encodingName utf8 ++ (sendStatus ([115, 101, 114, 118, 101, 114] ++ [95, 101, 110, 99, 111, 100, 105, 110, 103]) utf8 ++
      (sendStatus ([115, 101, 114, 118, 101, 114] ++ [95, 118, 101, 114, 115, 105, 111, 110]) ((c.version ++ [32, 40, 80, 111, 103, 111, 99, 97, 99, 104, 101, 41]).take 127) ++
        ([90, 0, 0, 0, 5, 73] ++ rest)))) := by
    simp only [sendReply, sendReady, hx, List.flatten_append, List.flatten_cons, List.flatten_nil, List.append_nil, List.append_assoc]
    rfl
  rw [hb, settings]
  generalize (c.version ++ [32, 40, 80, 111, 103, 111, 99, 97, 99, 104, 101, 41]).take 127 = v at hv' hlen
  rw [getLogin, show getMsg (sendAuth 0 ++ _) = _ from getMsg_written 82 (n := 8) (p := [0, 0, 0, 0]) rfl (by decide) _]
  simp only [Option.bind_some, true_and, if_true]
  have hf : ∃ f, (sendAuth 0 ++ (sendStatus encodingName utf8 ++ (sendStatus ([115, 101, 114, 118, 101, 114] ++ [95, 101, 110, 99, 111, 100, 105, 110, 103]) utf8 ++
      (sendStatus ([115, 101, 114, 118, 101, 114] ++ [95, 118, 101, 114, 115, 105, 111, 110]) v ++ ([90, 0, 0, 0, 5, 73] ++ rest))))).length = f + 1 + 1 + 1 + 1 :=
    ⟨_, rfl⟩
  obtain ⟨f, hf⟩ := hf
  rw [hf, status_read (by decide) (by decide) (by decide), status_read (by decide) (by decide) (by decide), status_read (by decide) hv' (by
    simp only [List.length_append, List.length_cons, List.length_nil]; omega), status_ready]
  rfl

theorem asked_read (rest : Bytes) : getAsked (sendAuth 3 ++ rest) = some rest := by
  rw [getAsked, show getMsg (sendAuth 3 ++ rest) = _ from getMsg_written 82 (n := 8) (p := [0, 0, 0, 3]) rfl (by decide) rest]
  rfl

theorem serve_fail {hash : Nat → Nat} {c : Conf} {e : Env} {pw : Bytes} {x : Client} {n : Nat} {other : Fn → Env → List Bytes → Prog (List W)} {data : Bytes} {m : Msg}
    (h1 : frame data = .got (m, n)) (h2 : handle hash pw x.pg m = .fail) : serve hash c e pw other x data = .ret (writeErr x.pg c.lastError, n, { x with live := false }) := by
  unfold serve
  rw [h1]
  simp only []
  rw [h2]

/-! ### Login -/

section
variable {env : Spec.Env} {I : Spec.State → Spec.State → Prop} {oom : Bool} {hash : Nat → Nat} {c c1 : Conf} {e e1 : Env} {pw : Bytes} {other : Fn → Env → List Bytes → Prog (List W)}
  {x x1 x' : Client} {s s1 s' : Spec.State} {out out1 : List Bytes} {n n1 : Nat}

/-- **C81**, no password configured.  A client that sends a startup message with any parameters and no encoding but UTF8 is told that it is logged in, and the connection is idle
(so that the queries that follow are answered, `queries_answered_partial`). -/
theorem login_open (hnew : x.pg = State.new) {ps : List (Bytes × Bytes)} (hp : Params ps) (he : ∀ v, encodingOf ps = some v → v = utf8)
    (hl : (startupText ps).length + 8 ≤ 65536) (hv : 0 ∉ c.version) {rest : Bytes}
    (h : Runs env I oom e.now (serve hash c e [] other x (startupMsg ps ++ rest)) s (out, n, x') s') :
    n = (startupMsg ps).length ∧ s' = s ∧ x'.live = true ∧ x'.st = x.st ∧ Idle x'.pg ∧ ∀ rest', getLogin (out.flatten ++ rest') = some (settings c.version, rest') := by
  have h2 := handle_startup hash [] x.pg hp he
  rw [serve_none (rs := [.authOk]) (pg' := { State.new with ready := true }) (au := false) (lv := true) (frame_startup hl rest) h2 (by rw [hnew]; rfl)] at h
  obtain ⟨g, rfl⟩ := runs_ret h
  simp only [Prod.mk.injEq] at g
  obtain ⟨rfl, rfl, rfl⟩ := g
  refine ⟨rfl, rfl, rfl, rfl, ⟨rfl, rfl, rfl, rfl, rfl, rfl, rfl, rfl, rfl, rfl⟩, fun rest' => ?_⟩
  have := login_read c (pg := { State.new with ready := true }) rfl hv rest'
  simpa using this

/-- **C81**, with a password: the startup message is answered by the question for it. -/
theorem login_asks (hnew : x.pg = State.new) (hpw : pw ≠ []) {ps : List (Bytes × Bytes)} (hp : Params ps) (he : ∀ v, encodingOf ps = some v → v = utf8)
    (hl : (startupText ps).length + 8 ≤ 65536) {rest : Bytes}
    (h : Runs env I oom e.now (serve hash c e pw other x (startupMsg ps ++ rest)) s (out, n, x') s') :
    n = (startupMsg ps).length ∧ s' = s ∧ x' = ⟨{ State.new with startup := true }, x.st, true⟩ ∧ ∀ rest', getAsked (out.flatten ++ rest') = some rest' := by
  have h2 := handle_startup hash pw x.pg hp he
  rw [serve_none (rs := [.askPassword]) (pg' := { State.new with startup := true }) (au := false) (lv := true) (frame_startup hl rest) h2 (by
    rw [hnew]
    unfold respond
    simp [hpw, State.new])] at h
  obtain ⟨g, rfl⟩ := runs_ret h
  simp only [Prod.mk.injEq] at g
  obtain ⟨rfl, rfl, rfl⟩ := g
  refine ⟨rfl, rfl, rfl, fun rest' => ?_⟩
  simpa [sendReply] using asked_read rest'

/-- **C81**, with a password.  The right answer to the question logs the client in, and the connection may execute commands; any other text is answered by an error, nothing is changed,
and the connection is closed. -/
theorem login_password (hnew : x.pg = State.new) (hpw : pw ≠ []) {ps : List (Bytes × Bytes)} (hp : Params ps) (he : ∀ v, encodingOf ps = some v → v = utf8)
    (hl : (startupText ps).length + 8 ≤ 65536) (hv : 0 ∉ c.version) (hlast : 0 ∉ c.lastError) {w rest : Bytes} (hw : 0 ∉ w) (hwl : w.length < 2147483000)
    (h : Runs env I oom e1.now (serve hash c1 e1 pw other x (startupMsg ps ++ (message 112 (passwordMsg w) ++ rest))) s (out1, n1, x1) s1)
    (h' : Runs env I oom e.now (serve hash c e pw other x1 (message 112 (passwordMsg w) ++ rest)) s1 (out, n, x') s') (hf : ∀ b ∈ out, b.length ≤ 2147483648) :
    n1 = (startupMsg ps).length ∧ n = (message 112 (passwordMsg w)).length ∧ s' = s ∧ (∀ rest', getAsked (out1.flatten ++ rest') = some rest') ∧
      ((w = pw ∧ x'.live = true ∧ x'.st.auth = true ∧ Idle x'.pg ∧ ∀ rest', getLogin (out.flatten ++ rest') = some (settings c.version, rest')) ∨
       (w ≠ pw ∧ x'.live = false ∧ x'.st = x.st ∧ ∃ t, ∀ rest', getAnswer (out.flatten ++ rest') = some (failedWith t, rest'))) := by
  obtain ⟨rfl, rfl, rfl, g1⟩ := login_asks hnew hpw hp he hl h
  have hfr := frame_message 112 (passwordMsg w) rest (by decide) (by rw [passwordMsg, List.length_append, List.length_singleton]; omega)
  have h2 := handle_password hash pw { State.new with startup := true } hw
  by_cases c0 : w = pw
  · rw [if_neg (by simp [c0])] at h2
    rw [serve_none (x := ⟨{ State.new with startup := true }, x.st, true⟩) (rs := [.authOk]) (pg' := { State.new with startup := true, ready := true }) (au := true) (lv := true) hfr h2 rfl] at h'
    obtain ⟨g, rfl⟩ := runs_ret h'
    simp only [Prod.mk.injEq] at g
    obtain ⟨rfl, rfl, rfl⟩ := g
    refine ⟨rfl, rfl, rfl, g1, Or.inl ⟨c0, rfl, rfl, ⟨rfl, rfl, rfl, rfl, rfl, rfl, rfl, rfl, rfl, rfl⟩, fun rest' => ?_⟩⟩
    have := login_read c (pg := { State.new with startup := true, ready := true }) rfl hv rest'
    simpa using this
  · rw [if_pos c0] at h2
    rw [serve_fail (x := ⟨{ State.new with startup := true }, x.st, true⟩) hfr h2] at h'
    obtain ⟨g, rfl⟩ := runs_ret h'
    simp only [Prod.mk.injEq] at g
    obtain ⟨rfl, rfl, rfl⟩ := g
    refine ⟨rfl, rfl, rfl, g1, Or.inr ⟨c0, rfl, rfl, said c.lastError, fun rest' => ?_⟩⟩
    have := getAnswer_body (body_err hlast (hf _ (by simp [writeErr, said]))) rest'
    simpa [sendReady, writeErr, said, State.new] using this

/-- **C81**, other encodings are refused: an error, nothing is changed, and the connection is closed. -/
theorem login_encoding (hnew : x.pg = State.new) {ps : List (Bytes × Bytes)} (hp : Params ps) {v : Bytes} (he : encodingOf ps = some v) (hv : v ≠ utf8)
    (hl : (startupText ps).length + 8 ≤ 65536) (hlast : 0 ∉ c.lastError) {rest : Bytes}
    (h : Runs env I oom e.now (serve hash c e pw other x (startupMsg ps ++ rest)) s (out, n, x') s') (hf : ∀ b ∈ out, b.length ≤ 2147483648) :
    n = (startupMsg ps).length ∧ s' = s ∧ x'.live = false ∧ ∃ t, ∀ rest', getAnswer (out.flatten ++ rest') = some (failedWith t, rest') := by
  rw [serve_fail (frame_startup hl rest) (handle_startup_refused hash pw x.pg hp he hv)] at h
  obtain ⟨g, rfl⟩ := runs_ret h
  simp only [Prod.mk.injEq] at g
  obtain ⟨rfl, rfl, rfl⟩ := g
  refine ⟨rfl, rfl, rfl, said c.lastError, fun rest' => ?_⟩
  have := getAnswer_body (body_err hlast (hf _ (by simp [writeErr, said]))) rest'
  simpa [sendReady, writeErr, said, State.new, hnew] using this

/-- **C81**, the question whether to encrypt.  It is answered by one letter, and the connection is as before. -/
theorem login_ssl (hnew : x.pg = State.new) {rest : Bytes} (h : Runs env I oom e.now (serve hash c e pw other x ([0, 0, 0, 8, 4, 210, 22, 47] ++ rest)) s (out, n, x') s') :
    n = 8 ∧ s' = s ∧ out.flatten = [if c.tls then 89 else 78] ∧ x' = ⟨State.new, x.st, true⟩ := by
  have hfr : frame ([0, 0, 0, 8, 4, 210, 22, 47] ++ rest) = .got (.magic 80877103 [], 8) := by
    simp only [List.cons_append, List.nil_append]
    rw [frame, show readI32 0 0 0 8 = 8 from by decide +kernel, if_neg (by decide), if_neg (by simp only [List.length_cons]; omega), if_neg (by decide)]
    rfl
  rw [serve_none (rs := [.ssl]) (pg := { x.pg with error := false, ssl := true }) (pg' := State.new) (au := false) (lv := true) hfr rfl (by rw [hnew]; rfl)] at h
  obtain ⟨g, rfl⟩ := runs_ret h
  simp only [Prod.mk.injEq] at g
  obtain ⟨rfl, rfl, rfl⟩ := g
  exact ⟨rfl, rfl, by simp [sendReply], rfl⟩

end

/-! ### Examples and disagreements -/

/-- A new connection. -/
def newClient : Client := ⟨State.new, ⟨false⟩, true⟩

/-- `user` is `a`, `client_encoding` is `UTF8`. -/
def params1 : List (Bytes × Bytes) := [([117, 115, 101, 114], [97]), (encodingName, utf8)]

theorem startup_runs {env : Spec.Env} {I : Spec.State → Spec.State → Prop} {hash : Nat → Nat} {pw : Bytes} {s : Spec.State} {ps : List (Bytes × Bytes)} (hp : Params ps)
    (he : ∀ v, encodingOf ps = some v → v = utf8) (hl : (startupText ps).length + 8 ≤ 65536) (rest : Bytes) : ∃ out x',
    Runs env I false 5 (serve hash conf1 (at_ .postgres 5) pw (admin sys1) newClient (startupMsg ps ++ rest)) s (out, (startupMsg ps).length, x') s := by
  have h2 := handle_startup hash pw newClient.pg hp he
  obtain ⟨rs, hrs⟩ : ∃ rs, respond pw { newClient.pg with error := false, startup := true } = rs := ⟨_, rfl⟩
  obtain ⟨rs, pg', au, lv⟩ := rs
  rw [serve_none (frame_startup hl rest) h2 hrs]
  exact ⟨_, _, .ret _ _⟩

/-- Hypotheses of `login_open`, `login_asks` and the first half of those of `login_password`. -/
example (hash : Nat → Nat) (pw : Bytes) : Params params1 ∧ (∀ v, encodingOf params1 = some v → v = utf8) ∧ (startupText params1).length + 8 ≤ 65536 ∧ 0 ∉ conf1.version ∧
    ∃ out x', Runs ⟨true, false, fun _ => 0⟩ busy false 5 (serve hash conf1 (at_ .postgres 5) pw (admin sys1) newClient (startupMsg params1 ++ [7])) st1 (out, (startupMsg params1).length, x') st1 := by
  have hp : Params params1 := by unfold Params; decide
  have he : ∀ v, encodingOf params1 = some v → v = utf8 := by
    intro v hv
    rw [show encodingOf params1 = some utf8 from rfl] at hv
    exact (Option.some.inj hv).symm
  exact ⟨hp, he, by decide, by decide, startup_runs hp he (by decide) [7]⟩

/-- The second half of the hypotheses of `login_password`, for right and wrong passwords. -/
example (hash : Nat → Nat) (w : Bytes) (hw : 0 ∉ w) (hwl : w.length < 2147483000) : ∃ out n x',
    Runs ⟨true, false, fun _ => 0⟩ busy false 5 (serve hash conf1 (at_ .postgres 5) [112] (admin sys1) ⟨{ State.new with startup := true }, ⟨false⟩, true⟩ (message 112 (passwordMsg w) ++ [7])) st1
      (out, n, x') st1 ∧ ∀ b ∈ out, b.length ≤ 2147483648 := by
  have hfr := frame_message 112 (passwordMsg w) [7] (by decide) (by rw [passwordMsg, List.length_append, List.length_singleton]; omega)
  have h2 := handle_password hash [112] { State.new with startup := true } hw
  by_cases c0 : w = [112]
  · rw [if_neg (by simp [c0])] at h2
    rw [serve_none (x := ⟨{ State.new with startup := true }, ⟨false⟩, true⟩) (rs := [.authOk]) (pg' := { State.new with startup := true, ready := true }) (au := true) (lv := true) hfr h2 rfl]
    exact ⟨_, _, _, .ret _ _, by decide⟩
  · rw [if_pos c0] at h2
    rw [serve_fail (x := ⟨{ State.new with startup := true }, ⟨false⟩, true⟩) hfr h2]
    exact ⟨_, _, _, .ret _ _, by decide⟩

/-- Hypotheses of `login_encoding`: Latin 1. -/
example : Params [(encodingName, [76, 49])] ∧ encodingOf [(encodingName, [76, 49])] = some [76, 49] ∧ [76, 49] ≠ utf8 ∧ (startupText [(encodingName, [76, 49])]).length + 8 ≤ 65536 := by
  refine ⟨by unfold Params; decide, rfl, by decide, by decide⟩

/-- Hypotheses of `login_ssl`. -/
example (hash : Nat → Nat) : ∃ out n x', Runs ⟨true, false, fun _ => 0⟩ busy false 5 (serve hash conf1 (at_ .postgres 5) [] (admin sys1) newClient ([0, 0, 0, 8, 4, 210, 22, 47] ++ [7])) st1
    (out, n, x') st1 := ⟨_, _, _, .ret _ _⟩

/-- **C81, negation.**  A client that asks for no encoding is refused because of an encoding: an empty value (`options`) makes the server take names for values and values for names, here the name
of the user for the name of a parameter. -/
theorem empty_parameter_refused (hash : Nat → Nat) (pw : Bytes) (pg : State) :
    encodingOf [([111, 112, 116, 105, 111, 110, 115], []), ([117, 115, 101, 114], encodingName), ([100, 97, 116, 97, 98, 97, 115, 101], [120])] = none ∧
    handle hash pw pg (.magic 196608 (startupText [([111, 112, 116, 105, 111, 110, 115], []), ([117, 115, 101, 114], encodingName), ([100, 97, 116, 97, 98, 97, 115, 101], [120])])) = .fail :=
  ⟨rfl, rfl⟩

/-- **C81, negation.**  A client that was asked for the password and gave it is asked again later, whenever it asks for the description of a portal. -/
theorem password_asked_again {env : Spec.Env} {I : Spec.State → Spec.State → Prop} {oom : Bool} {hash : Nat → Nat} {c : Conf} {e : Env} {pw : Bytes} {other : Fn → Env → List Bytes → Prog (List W)}
    {x x' : Client} {s s' : Spec.State} {out : List Bytes} {n : Nat} (hi : Idle x.pg) (hs : x.pg.startup = true) (hpw : pw ≠ []) {portal : Bytes} (hn : Name portal)
    (hl : x.pg.portals.lookup portal ≠ none) {rest : Bytes}
    (h : Runs env I oom e.now (serve hash c e pw other x (message 68 (80 :: (portal ++ [0])) ++ rest)) s (out, n, x') s') (rest' : Bytes) :
    x'.live = true ∧ getAsked (out.flatten ++ rest') = some rest' := by
  obtain ⟨p, hp⟩ := Option.ne_none_iff_exists'.1 hl
  have h2 : handle hash pw x.pg (.typed 68 (80 :: (portal ++ [0]))) = .ok [] { x.pg with error := false, desc := descPortal x.pg.oid p.params.length } := by
    have hh : ∀ m, handle hash pw x.pg (.typed 68 m) = parseD { x.pg with error := false } m := fun _ => rfl
    rw [hh, parseD, if_neg (by simp [hi.describe])]
    simp only []
    rw [cstr_exact _ _ hn.2]
    simp only [true_or, if_true]
    rw [lookupName, if_neg (by have := hn.1; omega), hp]
    rfl
  rw [serve_none (rs := [.askPassword]) (pg' := { x.pg with error := false, desc := descPortal x.pg.oid p.params.length }) (au := false) (lv := true)
    (frame_message 68 (80 :: (portal ++ [0])) rest (by decide) (by have := hn.1; simp; omega)) h2 (by
      unfold respond
      simp [hi.emptyQuery, hi.parse, hi.bind, hi.describe, hi.sync, hi.close, hi.ssl, hi.auth, hs, hpw])] at h
  obtain ⟨g, rfl⟩ := runs_ret h
  simp only [Prod.mk.injEq] at g
  obtain ⟨rfl, rfl, rfl⟩ := g
  exact ⟨rfl, by simpa [sendReply] using asked_read rest'⟩

/-- Hypotheses of `password_asked_again`: the state behind `login_password`, with a portal. -/
example (hash : Nat → Nat) : Idle { State.new with startup := true, ready := true, portals := [([], ⟨[], []⟩)] } ∧ Name [] ∧
    ∃ out n x', Runs ⟨true, false, fun _ => 0⟩ busy false 5 (serve hash conf1 (at_ .postgres 5) [112] (admin sys1) ⟨{ State.new with startup := true, ready := true, portals := [([], ⟨[], []⟩)] }, ⟨true⟩, true⟩
      (message 68 (80 :: ([] ++ [0])) ++ [7])) st1 (out, n, x') st1 := by
  refine ⟨⟨rfl, rfl, rfl, rfl, rfl, rfl, rfl, rfl, rfl, rfl⟩, name_nil, _, _, _, .ret _ _⟩

end Verif.Pg
