import Mathlib.Tactic.Common
import Mathlib.Data.List.Nodup
import Mathlib.Data.List.Perm.Basic
import Verif.Main.Monitor
import Verif.Resp.Inline

/-!
C96: a MONITOR session, `monitor_work` in `/repo/src/cmds.c:1499-1532`, with the list of monitoring connections of `/repo/src/monitor.c:20-47` and
`monitor_cmd`, `/repo/src/monitor.c:49-106`, called by `evcommand`, `/repo/src/cmds.c:2397-2398`.

First part: what the client gets for what it sends during the session.  Second part: which commands it is shown, with any number of monitors and threads.
-/

namespace Verif.Main.MonSession

open Verif.Resp
open Verif.Main.Monitor (argsEq)
open Verif.Cmd (Spells lower)

/-! ### What the client sends -/

/-- `ping`. -/
def pingName : Bytes := [112, 105, 110, 103]
/-- `+PONG\r\n`. -/
def pong : Bytes := [43, 80, 79, 78, 71, 13, 10]

/-- The loop of `monitor_work`, `/repo/src/cmds.c:1506-1528`, for the results of `conn_read` (the empty list: end of file or an error): what is written, and
whether the session still goes on.  The buffer has 4096 bytes (line 1502), so `reads` have at most these; the number parser reading outside of it (lines
1512-1516, see C57) is `ub`. -/
def session : List Bytes → PR (Bytes × Bool)
  | [] => .got ([], true)
  | s :: reads =>
    if s = [] then .got ([], false)
    else
      match parseCommandResp s with
      | .ub => .ub
      | .more => .got ([], false)
      | .err => .got ([], false)
      | .got (as, n) =>
        if n ≠ s.length then .got ([], false)
        else if as.length = 0 then session reads
        else if argsEq as 0 pingName then (session reads).bind fun r => .got (pong ++ r.1, r.2)
        else .got ([], false)

/-- `monitor`, `+OK\r\n`. -/
def monitorName : Bytes := [109, 111, 110, 105, 116, 111, 114]
/-- See `monitorName`. -/
def okLine : Bytes := [43, 79, 75, 13, 10]

/-- What a connection on which `first` is read gets, if that begins with MONITOR, and what is read after it: `cmdMONITOR`, `/repo/src/cmds.c:1541-1559`.  The rest of
`first` is kept (`/repo/src/conn.c:162-165,184-189`), but `monitor_work` does not look at it and `monitor_done` closes the connection (lines 1534-1538). -/
def monitorConn (first : Bytes) (reads : List Bytes) : PR (Bytes × Bool) :=
  (parseCommandResp first).bind fun r =>
    if argsEq r.1 0 monitorName ∧ r.1.length = 1 then (session reads).bind fun o => .got (okLine ++ o.1, o.2) else .err

/-- Specification: a request that asks for a sign of life: `PING` in any letters, as a RESP array or a line. -/
def PingReq (w : Bytes) : Prop := ∃ name, Request [name] w ∧ Spells name [112, 105, 110, 103]

/-- Specification: a request `MONITOR`. -/
def MonitorReq (w : Bytes) : Prop := ∃ name, Request [name] w ∧ Spells name [109, 111, 110, 105, 116, 111, 114]

/-- Specification: a request of one or more words, the first of which is not PING. -/
def AnyReq (w : Bytes) : Prop := ∃ name rest, Request (name :: rest) w ∧ ¬ Spells name [112, 105, 110, 103]

theorem argsEq_ping {name : Bytes} {rest : List Bytes} :
    argsEq (name :: rest) 0 pingName = true ↔ Spells name [112, 105, 110, 103] := by
  simp only [argsEq, List.getElem?_cons_zero, Bool.and_eq_true, decide_eq_true_eq]
  have e : pingName.map lower = pingName := by decide
  rw [Verif.Cmd.spells_iff name _ (by decide), e]
  refine ⟨fun h => h.2, fun h => ⟨?_, h⟩⟩
  rw [← List.length_map (f := lower), h]; rfl

theorem request_parse {as : List Bytes} {w : Bytes} (h : Request as w) : w ≠ [] ∧ parseCommandResp w = .got (as, w.length) := by
  have := request_framed h
  refine ⟨this.1, ?_⟩
  have := this.2.1 []
  rwa [List.append_nil] at this

theorem session_pings {reads : List Bytes} (h : ∀ w ∈ reads, PingReq w) (more : List Bytes) :
    session (reads ++ more) = (session more).bind fun r =>
      .got ((List.replicate reads.length [43, 80, 79, 78, 71, 13, 10]).flatten ++ r.1, r.2) := by
  induction reads with
  | nil => cases h : session more <;> simp [PR.bind, h]
  | cons w reads ih =>
    obtain ⟨name, hr, hs⟩ := h w List.mem_cons_self
    obtain ⟨h1, h2⟩ := request_parse hr
    rw [List.cons_append, session, if_neg h1, h2]
    simp only [ne_eq, not_true_eq_false, if_false, List.length_singleton, one_ne_zero, argsEq_ping.2 hs, if_true]
    rw [ih fun w hw => h w (List.mem_cons_of_mem _ hw)]
    cases session more <;> simp [PR.bind, List.replicate_succ, pong]

theorem monitorConn_req {w : Bytes} (h : MonitorReq w) (reads : List Bytes) :
    monitorConn w reads = (session reads).bind fun o => .got ([43, 79, 75, 13, 10] ++ o.1, o.2) := by
  obtain ⟨name, hr, hs⟩ := h
  rw [monitorConn, (request_parse hr).2, PR.bind, if_pos]
  · rfl
  · have hm := (Verif.Cmd.spells_iff name _ (by decide)).1 hs
    have e : monitorName.map lower = monitorName := by decide
    refine ⟨?_, rfl⟩
    simp only [argsEq, List.getElem?_cons_zero, Bool.and_eq_true, decide_eq_true_eq, e]
    refine ⟨?_, hm⟩
    rw [← List.length_map (f := lower), hm]; rfl

/-- **C96, partial.**  MONITOR is answered with OK.  As long as after it each read returns exactly one request, and that is a PING, each is answered with one
PONG and the session goes on.  Missing: that it does not matter how the requests arrive, see `split_ping_ends`, `two_pings_end`,
`ping_with_monitor_unanswered`. -/
theorem pings_answered_partial {first : Bytes} {reads : List Bytes} (hm : MonitorReq first) (h : ∀ w ∈ reads, PingReq w) :
    monitorConn first reads =
      .got ([43, 79, 75, 13, 10] ++ (List.replicate reads.length [43, 80, 79, 78, 71, 13, 10]).flatten, true) := by
  rw [monitorConn_req hm, ← List.append_nil reads, session_pings h]
  simp [session, PR.bind]

/-- Any other request ends the session (that is how a client stops monitoring), after the PINGs before it were answered. -/
theorem other_ends {first : Bytes} {pings : List Bytes} {w : Bytes} (hm : MonitorReq first) (h : ∀ w ∈ pings, PingReq w) (hw : AnyReq w)
    (more : List Bytes) :
    monitorConn first (pings ++ w :: more) =
      .got ([43, 79, 75, 13, 10] ++ (List.replicate pings.length [43, 80, 79, 78, 71, 13, 10]).flatten, false) := by
  rw [monitorConn_req hm, session_pings h]
  obtain ⟨name, rest, hr, hs⟩ := hw
  obtain ⟨h1, h2⟩ := request_parse hr
  have : session (w :: more) = .got ([], false) := by
    rw [session, if_neg h1, h2]
    have : argsEq (name :: rest) 0 pingName = false := by
      rw [Bool.eq_false_iff]; exact fun h => hs (argsEq_ping.1 h)
    simp [this]
  rw [this]
  simp [PR.bind]

/-- `MONITOR\r\n`, `PING\r\n` as a line, `*1\r\n$4\r\nping\r\n`, `QUIT\r\n`. -/
def exMonitor : Bytes := [77, 79, 78, 73, 84, 79, 82, 13, 10]
/-- See `exMonitor`. -/
def exPing : Bytes := [80, 73, 78, 71, 13, 10]
/-- See `exMonitor`. -/
def exPing2 : Bytes := [42, 49, 13, 10, 36, 52, 13, 10, 112, 105, 110, 103, 13, 10]
/-- See `exMonitor`. -/
def exQuit : Bytes := [81, 85, 73, 84, 13, 10]

theorem line_req {w : Bytes} (hw : w ≠ []) (hb : ∀ b ∈ w, b ∉ ([32, 9, 11, 12, 13, 10, 34, 39] : Bytes)) (hs : w.head? ≠ some 42) (hl : w.length ≤ 100) :
    Request [w] (w ++ [13, 10]) := by
  refine .inr ⟨?_, by simp, ?_⟩
  · refine Line.cons (g := []) (w := w) (b := 13) (r := [10]) (by simp [Gap]) ⟨hw, fun b h => ?_, by omega⟩ (by simp [Blank])
      (Line.nil (g := [13]) (by unfold Gap Blank; decide))
    have := hb b h
    simp only [List.mem_cons, List.not_mem_nil, or_false, not_or] at this
    simp only [Blank, List.mem_cons, List.not_mem_nil, or_false, not_or]
    tauto
  · obtain ⟨b, r, rfl⟩ := List.exists_cons_of_ne_nil hw
    simpa using hs

theorem exMonitor_req : MonitorReq exMonitor :=
  ⟨[77, 79, 78, 73, 84, 79, 82], line_req (by simp) (by decide) (by decide) (by decide), (Verif.Cmd.spells_iff _ _ (by decide)).2 (by decide)⟩

theorem exPing_req : PingReq exPing :=
  ⟨[80, 73, 78, 71], line_req (by simp) (by decide) (by decide) (by decide), (Verif.Cmd.spells_iff _ _ (by decide)).2 (by decide)⟩

theorem exPing2_req : PingReq exPing2 := by
  refine ⟨[112, 105, 110, 103], .inl ?_, (Verif.Cmd.spells_iff _ _ (by decide)).2 (by decide)⟩
  refine ⟨[49], _, ⟨by decide, by decide, by decide, by decide⟩, by decide, ?_, rfl⟩
  exact .cons (w := [36, 52, 13, 10, 112, 105, 110, 103, 13, 10])
    ⟨[52], ⟨by decide, by decide, by decide, by decide⟩, by decide, rfl⟩ .nil

theorem exQuit_req : AnyReq exQuit :=
  ⟨[81, 85, 73, 84], [], line_req (by simp) (by decide) (by decide) (by decide), fun h =>
    absurd ((Verif.Cmd.spells_iff _ _ (by decide)).1 h) (by decide)⟩

/-- Hypotheses of `pings_answered_partial` and `other_ends`. -/
example : MonitorReq exMonitor ∧ (∀ w ∈ [exPing, exPing2, exPing], PingReq w) ∧ AnyReq exQuit :=
  ⟨exMonitor_req, by simp [exPing_req, exPing2_req], exQuit_req⟩

/-- **C96, negation.**  A PING that arrives in two parts ends the session, without an answer. -/
theorem split_ping_ends : PingReq (exPing.take 3 ++ exPing.drop 3) ∧
    monitorConn exMonitor [exPing.take 3, exPing.drop 3] = .got (okLine, false) :=
  ⟨by rw [List.take_append_drop]; exact exPing_req, by decide +kernel⟩

/-- **C96, negation.**  Two PINGs that arrive together end the session, without an answer. -/
theorem two_pings_end : monitorConn exMonitor [exPing ++ exPing] = .got (okLine, false) := by decide +kernel

/-- **C96, negation.**  A PING that arrives together with MONITOR is not answered; one that comes after it is. -/
theorem ping_with_monitor_unanswered : monitorConn (exMonitor ++ exPing) [exPing] = .got (okLine ++ pong, true) := by decide +kernel

/-- And `PING hello`, which otherwise is answered with `hello` (C84), is answered with PONG. -/
theorem ping_message_ignored : monitorConn exMonitor [[80, 73, 78, 71, 32, 104, 105, 13, 10]] = .got (okLine ++ pong, true) := by decide +kernel

/-! ### What is shown -/

/-- `monitor_start`, `/repo/src/monitor.c:25-34`: the list. -/
def add (l : List Nat) (c : Nat) : List Nat := l ++ [c]

/-- `monitor_stop`, `/repo/src/monitor.c:36-47`: the last element is put in the place of the first that is the connection. -/
def del (l : List Nat) (c : Nat) : List Nat :=
  match l.findIdx? (· = c) with
  | none => l
  | some i => (l.set i (l.getLastD 0)).dropLast

/-- Where a connection stands: not monitoring; OK was sent (`net_conn_bgwork` flushes, `/repo/src/net.c:1270-1273`) and the thread of `monitor_work` created; in the
list; removed from it. -/
inductive Phase where
  | away | accepted | watching | ended
deriving DecidableEq

/-- Where a command stands: not begun; `monitoring` was looked at (`/repo/src/monitor.c:50-58`) and the line is (`true`) or is not to be written; the line was
written; `cmd->func` was called. -/
inductive Stage where
  | fresh | looked (go : Bool) | shown | ran
deriving DecidableEq

/-- The state, `/repo/src/monitor.c:19-23`: `monitoring`, `conns`; for each connection where it stands and which commands it was shown; for each command where it stands. -/
structure St where
  monitoring : Int
  conns : List Nat
  phase : Nat → Phase
  seen : Nat → List Nat
  stage : Nat → Stage

/-- At the start, `/repo/src/monitor.c:19-23`. -/
def start : St := ⟨0, [], fun _ => .away, fun _ => [], fun _ => .fresh⟩

/-- What happens (see `Step` for the lines): OK is sent to a connection that asked for MONITOR; it is entered in the list; it is removed from it; a command comes to `monitor_cmd`; its line is
written; it is executed. -/
inductive Ev where
  | ok (c : Nat)
  | watch (c : Nat)
  | unwatch (c : Nat)
  | begin (i : Nat)
  | line (i : Nat)
  | exec (i : Nat)
deriving DecidableEq

/-- Change one value. -/
def upd {α : Type} (f : Nat → α) (k : Nat) (v : α) : Nat → α := fun n => if n = k then v else f n

section
variable (cmds : Nat → List Bytes)

/-- Commands that are not shown, `/repo/src/monitor.c:54-58`. -/
def hidden (i : Nat) : Bool :=
  (cmds i).length = 0 || argsEq (cmds i) 0 Monitor.authName || argsEq (cmds i) 0 Monitor.quitName || argsEq (cmds i) 0 Monitor.monitorName

/-- One step of some thread.  What is done with the mutex held is one step; looking at `monitoring` (line 50) is done without it.  `cmds i` are the arguments of
command `i`. -/
inductive Step : St → Ev → St → Prop
  /-- `cmdMONITOR`, `/repo/src/cmds.c:1541-1559`. -/
  | ok {s c} : s.phase c = .away → Step s (.ok c) { s with phase := upd s.phase c .accepted }
  /-- `monitor_start`, `/repo/src/monitor.c:25-34`. -/
  | watch {s c} : s.phase c = .accepted →
      Step s (.watch c) { s with phase := upd s.phase c .watching, conns := add s.conns c, monitoring := s.monitoring + 1 }
  /-- `monitor_stop`, `/repo/src/monitor.c:36-47`. -/
  | unwatch {s c} : s.phase c = .watching →
      Step s (.unwatch c) { s with phase := upd s.phase c .ended, conns := del s.conns c, monitoring := s.monitoring - 1 }
  /-- `monitor_cmd`, `/repo/src/monitor.c:50-58`. -/
  | begin {s i} : s.stage i = .fresh →
      Step s (.begin i) { s with stage := upd s.stage i (.looked (s.monitoring ≠ 0 && !hidden cmds i)) }
  /-- `monitor_cmd`, `/repo/src/monitor.c:99-104`: a line for each in the list. -/
  | line {s i} : s.stage i = .looked true →
      Step s (.line i) { s with stage := upd s.stage i .shown, seen := s.conns.foldl (fun f c => upd f c (f c ++ [i])) s.seen }
  /-- `cmd->func`, `/repo/src/cmds.c:2398`. -/
  | exec {s i} : s.stage i = .looked false ∨ s.stage i = .shown → Step s (.exec i) { s with stage := upd s.stage i .ran }

/-- Executions, by any threads (`/repo/src/net.c:886-940`, `/repo/src/net.c:1244-1254`): everything that happened, and the state after it. -/
inductive Runs : List Ev → St → Prop
  | start : Runs [] start
  | step {t s e s'} : Runs t s → Step cmds s e s' → Runs (t ++ [e]) s'

end

/-- Specification: `x` happened before `y`. -/
def Before (t : List Ev) (x y : Ev) : Prop := ∃ a b, t = a ++ b ∧ x ∈ a ∧ y ∈ b

/-- Specification: commands not to be shown. -/
def Secret (args : List Bytes) : Prop :=
  args = [] ∨ ∃ name rest, args = name :: rest ∧
    (Spells name [97, 117, 116, 104] ∨ Spells name [113, 117, 105, 116] ∨ Spells name [109, 111, 110, 105, 116, 111, 114])

/-! ### Proofs -/

theorem before_snoc {t : List Ev} {e x y : Ev} : Before (t ++ [e]) x y ↔ Before t x y ∨ (x ∈ t ∧ y = e) := by
  constructor
  · rintro ⟨a, b, h, hx, hy⟩
    rcases List.eq_nil_or_concat b with rfl | ⟨b', z, rfl⟩
    · simp at hy
    · rw [List.concat_eq_append, ← List.append_assoc] at h
      obtain ⟨h1, h2⟩ := List.append_inj' h rfl
      cases h2
      rw [List.concat_eq_append, List.mem_append, List.mem_singleton] at hy
      rcases hy with hy | rfl
      · exact .inl ⟨a, b', h1, hx, hy⟩
      · exact .inr ⟨h1 ▸ List.mem_append_left _ hx, rfl⟩
  · rintro (⟨a, b, rfl, hx, hy⟩ | ⟨hx, rfl⟩)
    · exact ⟨a, b ++ [e], by simp, hx, by simp [hy]⟩
    · exact ⟨t, [y], rfl, hx, by simp⟩

theorem Before.left {t : List Ev} {x y : Ev} (h : Before t x y) : x ∈ t := by
  obtain ⟨a, b, rfl, hx, _⟩ := h; simp [hx]

theorem Before.right {t : List Ev} {x y : Ev} (h : Before t x y) : y ∈ t := by
  obtain ⟨a, b, rfl, _, hy⟩ := h; simp [hy]

theorem Before.trans {t : List Ev} (hn : t.Nodup) {x y z : Ev} (h1 : Before t x y) (h2 : Before t y z) : Before t x z := by
  obtain ⟨a, b, rfl, hx, hy⟩ := h1
  obtain ⟨a', b', h, hy', hz⟩ := h2
  rcases List.append_eq_append_iff.1 h with ⟨k, rfl, rfl⟩ | ⟨k, rfl, rfl⟩
  · exact ⟨a ++ k, b', h, by simp [hx], hz⟩
  · exact absurd hy (List.disjoint_of_nodup_append hn (by simp [hy']))

theorem Before.irrefl {t : List Ev} (hn : t.Nodup) {x : Ev} : ¬ Before t x x := by
  rintro ⟨a, b, rfl, hx, hy⟩
  exact List.disjoint_of_nodup_append hn hx hy

theorem before_total {t : List Ev} {x y : Ev} (hx : x ∈ t) (hy : y ∈ t) (h : x ≠ y) : Before t x y ∨ Before t y x := by
  obtain ⟨a, b, rfl⟩ := List.append_of_mem hx
  simp only [List.mem_append, List.mem_cons] at hy
  rcases hy with hy | rfl | hy
  · exact .inr ⟨a, x :: b, rfl, hy, by simp⟩
  · exact absurd rfl h
  · exact .inl ⟨a ++ [x], b, by simp, by simp, hy⟩

theorem del_perm {l : List Nat} {c : Nat} (h : c ∈ l) : List.Perm l (c :: del l c) := by
  obtain ⟨a, b, rfl, ha⟩ := List.eq_append_cons_of_mem h
  have hs : (a ++ c :: b).findIdx? (· = c) = some a.length := by
    rw [List.findIdx?_append]
    have : a.findIdx? (· = c) = none := by
      rw [List.findIdx?_eq_none_iff]; intro x hx; simp only [decide_eq_false_iff_not]; rintro rfl; exact ha hx
    rw [this]; simp [List.findIdx?_cons]
  unfold del
  rw [hs]
  simp only [List.set_append_right _ _ (Nat.le_refl _), Nat.sub_self, List.set_cons_zero]
  rcases List.eq_nil_or_concat b with rfl | ⟨b, z, rfl⟩
  · simp [List.perm_append_singleton]
  · have e : (a ++ c :: b.concat z).getLastD 0 = z := by
      rw [List.concat_eq_append, show a ++ c :: (b ++ [z]) = (a ++ c :: b) ++ [z] by simp, List.getLastD_concat]
    rw [e, List.concat_eq_append, show a ++ z :: (b ++ [z]) = (a ++ z :: b) ++ [z] by simp, List.dropLast_concat]
    refine List.perm_middle.trans (.cons _ ?_)
    refine List.Perm.append_left a ?_
    exact List.perm_append_singleton z b

theorem show_seen {l : List Nat} (hl : l.Nodup) (f : Nat → List Nat) (i c : Nat) :
    l.foldl (fun f c => upd f c (f c ++ [i])) f c = if c ∈ l then f c ++ [i] else f c := by
  induction l generalizing f with
  | nil => rfl
  | cons x l ih =>
    rw [List.nodup_cons] at hl
    rw [List.foldl_cons, ih hl.2]
    by_cases h : c = x
    · subst h; simp [hl.1, upd]
    · simp [h, upd]

/-- What holds in every execution. -/
structure Inv (cmds : Nat → List Bytes) (t : List Ev) (s : St) : Prop where
  nodup : t.Nodup
  cnodup : s.conns.Nodup
  mem : ∀ c, c ∈ s.conns ↔ s.phase c = .watching
  cnt : s.monitoring = s.conns.length
  pO : ∀ c, Ev.ok c ∈ t ↔ s.phase c ≠ .away
  pW : ∀ c, Ev.watch c ∈ t ↔ s.phase c = .watching ∨ s.phase c = .ended
  pU : ∀ c, Ev.unwatch c ∈ t ↔ s.phase c = .ended
  sB : ∀ i, Ev.begin i ∈ t ↔ s.stage i ≠ .fresh
  sE : ∀ i, Ev.exec i ∈ t ↔ s.stage i = .ran
  sS : ∀ i, Ev.line i ∈ t → s.stage i = .shown ∨ s.stage i = .ran
  sH : ∀ i, s.stage i = .shown → Ev.line i ∈ t
  ordB : ∀ i, Ev.line i ∈ t → Before t (.begin i) (.line i)
  ordB' : ∀ i, Ev.exec i ∈ t → Before t (.begin i) (.exec i)
  ordE : ∀ i, Ev.line i ∈ t → Ev.exec i ∈ t → Before t (.line i) (.exec i)
  ordW : ∀ c, Ev.unwatch c ∈ t → Before t (.watch c) (.unwatch c)
  go : ∀ i c, s.stage i = .looked false ∨ (s.stage i = .ran ∧ Ev.line i ∉ t) → hidden cmds i = false → Before t (.watch c) (.begin i) →
    Before t (.unwatch c) (.begin i)
  hid : ∀ i, s.stage i = .looked true ∨ Ev.line i ∈ t → hidden cmds i = false
  seen : ∀ c i, i ∈ s.seen c ↔ Before t (.watch c) (.line i) ∧ ¬ Before t (.unwatch c) (.line i)
  snodup : ∀ c, (s.seen c).Nodup
  sord : ∀ c i j, i ∈ s.seen c → j ∈ s.seen c → Before t (.line i) (.line j) → [i, j].Sublist (s.seen c)

theorem Before.not_nil {x y : Ev} : ¬ Before [] x y := by
  rintro ⟨a, b, h, hx, _⟩
  cases a <;> simp at h hx

theorem nodup_snoc {t : List Ev} {e : Ev} (h : t.Nodup) (he : e ∉ t) : (t ++ [e]).Nodup := by
  rw [List.nodup_append]
  refine ⟨h, by simp, ?_⟩
  rintro a ha b hb rfl
  rw [List.mem_singleton] at hb
  exact he (hb ▸ ha)

theorem inv_start (cmds : Nat → List Bytes) : Inv cmds [] start := by
  constructor <;> simp [start, Before.not_nil]

theorem inv_step {cmds : Nat → List Bytes} {t : List Ev} {s s' : St} {e : Ev} (h : Inv cmds t s) (hs : Step cmds s e s') : Inv cmds (t ++ [e]) s' := by
  obtain ⟨nodup, cnodup, mem, cnt, pO, pW, pU, sB, sE, sS, sH, ordB, ordB', ordE, ordW, go, hid, seen, snodup, sord⟩ := h
  cases hs with
  | @ok c hp =>
    constructor <;> try refine nodup_snoc nodup ?_
    all_goals try simp only [before_snoc, List.mem_append, List.mem_singleton, upd]
    all_goals try grind
  | @watch c hp =>
    constructor <;> try refine nodup_snoc nodup ?_
    all_goals try simp only [before_snoc, List.mem_append, List.mem_singleton, upd, upd, add]
    all_goals try grind
  | @unwatch c hp =>
    have hc := del_perm ((mem c).2 hp)
    have hn := (hc.nodup_iff).1 cnodup
    have hm := fun x => (hc.mem_iff (a := x))
    have hl := hc.length_eq
    constructor <;> try refine nodup_snoc nodup ?_
    all_goals try simp only [before_snoc, List.mem_append, List.mem_singleton, upd]
    all_goals try grind
  | @begin i hp =>
    constructor <;> try refine nodup_snoc nodup ?_
    all_goals try simp only [before_snoc, List.mem_append, List.mem_singleton, upd]
    all_goals try grind
    case go =>
      intro j c h1 h2 h3
      by_cases hj : j = i
      · subst hj
        simp only [if_true, h2, Bool.not_false, Bool.and_true] at h1
        have h0 : s.monitoring = 0 := by
          rcases h1 with h1 | h1
          · simpa using h1
          · simp at h1
        have hc : s.conns = [] := by
          rw [cnt] at h0; exact List.length_eq_zero_iff.1 (by omega)
        have hm := mem c
        rw [hc] at hm
        have hw : Ev.watch c ∈ t := by
          rcases h3 with h3 | h3
          · exact h3.left
          · exact h3.1
        rcases (pW c).1 hw with h | h
        · exact absurd (hm.2 h) (by simp)
        · exact .inr ⟨(pU c).2 h, rfl⟩
      · grind
  | @line i hp =>
    constructor <;> try refine nodup_snoc nodup ?_
    all_goals try simp only [before_snoc, List.mem_append, List.mem_singleton, upd, show_seen cnodup]
    all_goals try grind
    case seen =>
      intro c j
      have h1 : Before t (.watch c) (.line j) → j ≠ i := by
        rintro h rfl; have := sS _ h.right; rw [hp] at this; simp at this
      have h2 := seen c j
      have h3 := pW c
      have h4 := pU c
      have h5 := mem c
      have h6 : Before t (.unwatch c) (.line j) → j ≠ i := by
        rintro h rfl; have := sS _ h.right; rw [hp] at this; simp at this
      clear mem cnt pO pW pU sB sE sS sH ordB ordB' ordE ordW go hid seen snodup sord nodup cnodup
      split
      · rw [List.mem_append, List.mem_singleton]
        grind
      · grind
    case snodup =>
      intro c
      have h1 : i ∉ s.seen c := by
        intro h
        have := sS _ ((seen c i).1 h).1.right
        rw [hp] at this; simp at this
      split
      · rw [List.nodup_append]
        refine ⟨snodup c, by simp, ?_⟩
        rintro a ha b hb rfl
        rw [List.mem_singleton] at hb
        exact h1 (hb ▸ ha)
      · exact snodup c
    case sord =>
      intro c j k
      have h1 : ∀ k, Before t (.line j) (.line k) → k ≠ i := by
        rintro k h rfl; have := sS _ h.right; rw [hp] at this; simp at this
      have h2 : Ev.line i ∉ t := by intro h; have := sS _ h; rw [hp] at this; simp at this
      split
      · simp only [List.mem_append, List.mem_singleton]
        intro hj hk hb
        rcases hb with hb | ⟨hb, hki⟩
        · have hji : j ≠ i := by rintro rfl; exact h2 hb.left
          exact (sord c j k (hj.resolve_right hji) (hk.resolve_right (h1 k hb)) hb).trans (List.sublist_append_left _ _)
        · have hji : j ≠ i := by rintro rfl; exact h2 hb
          cases hki
          exact List.Sublist.append (l₁ := [j]) (List.singleton_sublist.2 (hj.resolve_right hji)) (List.Sublist.refl [i])
      · intro hj hk hb
        rcases hb with hb | ⟨hb, hki⟩
        · exact sord c j k hj hk hb
        · cases hki
          exact absurd ((seen c i).1 hk).1.right h2
  | @exec i hp =>
    constructor <;> try refine nodup_snoc nodup ?_
    all_goals try simp only [before_snoc, List.mem_append, List.mem_singleton, upd]
    all_goals try grind

theorem runs_inv {cmds : Nat → List Bytes} {t : List Ev} {s : St} (h : Runs cmds t s) : Inv cmds t s := by
  induction h with
  | start => exact inv_start cmds
  | step _ hs ih => exact inv_step ih hs

theorem hidden_iff (cmds : Nat → List Bytes) (i : Nat) : hidden cmds i = true ↔ Secret (cmds i) := by
  unfold hidden Secret
  cases h : cmds i with
  | nil => simp
  | cons name rest =>
    have key : ∀ low : Bytes, low.map lower = low → (argsEq (name :: rest) 0 low = true ↔ Spells name low) := by
      intro low hl
      rw [Verif.Cmd.spells_iff name _ hl]
      simp only [argsEq, List.getElem?_cons_zero, Bool.and_eq_true, decide_eq_true_eq, hl]
      refine ⟨fun h => h.2, fun h => ⟨?_, h⟩⟩
      rw [← List.length_map (f := lower), h]
    simp only [Bool.or_eq_true, List.length_cons, Nat.add_eq_zero_iff, one_ne_zero, and_false, decide_false, Bool.false_eq_true, false_or,
      key Monitor.authName (by decide), key Monitor.quitName (by decide), key Monitor.monitorName (by decide), reduceCtorEq, List.cons.injEq]
    constructor
    · rintro ((h | h) | h)
      · exact ⟨name, rest, ⟨rfl, rfl⟩, .inl h⟩
      · exact ⟨name, rest, ⟨rfl, rfl⟩, .inr (.inl h)⟩
      · exact ⟨name, rest, ⟨rfl, rfl⟩, .inr (.inr h)⟩
    · rintro ⟨_, _, ⟨rfl, rfl⟩, h | h | h⟩
      · exact .inl (.inl h)
      · exact .inl (.inr h)
      · exact .inr h

/-- **C96, partial.**  With any number of monitors, clients and threads: a command that comes to be handled after a connection was entered in the list of monitors,
and is executed before that connection is removed, is shown to it exactly once, unless it is one of those not to be shown.  Missing: that a
connection is in the list once it has got its OK, see `command_after_ok_not_shown`. -/
theorem shown_once_partial {cmds : Nat → List Bytes} {t : List Ev} {s : St} (h : Runs cmds t s) {c i : Nat} (hw : Before t (.watch c) (.begin i))
    (he : Ev.exec i ∈ t) (hu : ¬ Before t (.unwatch c) (.exec i)) (hs : ¬ Secret (cmds i)) : (s.seen c).count i = 1 := by
  have I := runs_inv h
  have hh : hidden cmds i = false := by rw [Bool.eq_false_iff]; exact fun h => hs ((hidden_iff _ _).1 h)
  have hbe := I.ordB' i he
  have hl : Ev.line i ∈ t := by
    by_contra hl
    exact hu ((I.go i c (.inr ⟨(I.sE i).1 he, hl⟩) hh hw).trans I.nodup hbe)
  rw [List.count_eq_one_of_mem (I.snodup c)]
  exact (I.seen c i).2 ⟨hw.trans I.nodup (I.ordB i hl), fun h => hu (h.trans I.nodup (I.ordE i hl he))⟩

/-- No command is shown twice, none of those not to be shown is, and none that came to be handled after the connection was removed from the list or was executed
before it was entered. -/
theorem shown_only {cmds : Nat → List Bytes} {t : List Ev} {s : St} (h : Runs cmds t s) {c i : Nat} (hi : i ∈ s.seen c) :
    (s.seen c).count i = 1 ∧ ¬ Secret (cmds i) ∧ Before t (.watch c) (.line i) ∧ ¬ Before t (.exec i) (.watch c) ∧
      ¬ Before t (.unwatch c) (.begin i) := by
  have I := runs_inv h
  obtain ⟨h1, h2⟩ := (I.seen c i).1 hi
  refine ⟨List.count_eq_one_of_mem (I.snodup c) hi, fun hs => ?_, h1, fun h => ?_, fun h => ?_⟩
  · have := I.hid i (.inr h1.right)
    rw [(hidden_iff _ _).2 hs] at this
    cases this
  · exact Before.irrefl I.nodup ((I.ordE i h1.right h.left).trans I.nodup (h.trans I.nodup h1))
  · exact h2 (h.trans I.nodup (I.ordB i h1.right))

/-- **C96, partial.**  Of two commands, one of which was executed before the other came, a monitor is shown the one executed first before the other.  Missing: commands
handled at the same time, see `shown_in_other_order`. -/
theorem shown_in_order_partial {cmds : Nat → List Bytes} {t : List Ev} {s : St} (h : Runs cmds t s) {c i j : Nat} (hi : i ∈ s.seen c) (hj : j ∈ s.seen c)
    (hb : Before t (.exec i) (.begin j)) : [i, j].Sublist (s.seen c) := by
  have I := runs_inv h
  have h1 := ((I.seen c i).1 hi).1.right
  have h2 := ((I.seen c j).1 hj).1.right
  exact I.sord c i j hi hj (((I.ordE i h1 hb.left).trans I.nodup hb).trans I.nodup (I.ordB j h2))

/-- All commands are `get`. -/
def exCmds : Nat → List Bytes := fun _ => [[103, 101, 116], [107]]

theorem exCmds_shown (i : Nat) : hidden exCmds i = false := by unfold hidden exCmds; decide +kernel

/-- Two monitors; a command that comes and is executed while both are there; one monitor leaves; another command. -/
def exTrace : List Ev := [.ok 1, .watch 1, .ok 2, .watch 2, .begin 10, .line 10, .exec 10, .unwatch 1, .begin 11, .line 11, .exec 11]

theorem exRuns : ∃ s, Runs exCmds exTrace s ∧ s.seen 1 = [10] ∧ s.seen 2 = [10, 11] := by
  have h := (((((((((((Runs.start (cmds := exCmds)).step (.ok (c := 1) rfl)).step (.watch (c := 1) rfl)).step (.ok (c := 2) rfl)).step
    (.watch (c := 2) rfl)).step (.begin (i := 10) rfl)).step (.line (i := 10) (by decide +kernel))).step (.exec (i := 10) (.inr rfl))).step
    (.unwatch (c := 1) rfl)).step (.begin (i := 11) rfl)).step (.line (i := 11) (by decide +kernel))).step (.exec (i := 11) (.inr rfl))
  exact ⟨_, h, by decide +kernel, by decide +kernel⟩

theorem exCmds_not_secret (i : Nat) : ¬ Secret (exCmds i) := by
  rw [← hidden_iff, exCmds_shown]; decide

/-- Hypotheses of `shown_once_partial`, `shown_only` and `shown_in_order_partial`. -/
example : ∃ s, Runs exCmds exTrace s ∧ Before exTrace (.watch 1) (.begin 10) ∧ Ev.exec 10 ∈ exTrace ∧ ¬ Before exTrace (.unwatch 1) (.exec 10) ∧
    ¬ Secret (exCmds 10) ∧ 10 ∈ s.seen 2 ∧ 11 ∈ s.seen 2 ∧ Before exTrace (.exec 10) (.begin 11) := by
  obtain ⟨s, h, h1, h2⟩ := exRuns
  refine ⟨s, h, ⟨exTrace.take 4, exTrace.drop 4, by decide, by decide, by decide⟩, by decide, fun hb => ?_, exCmds_not_secret _, by simp [h2], by simp [h2],
    ⟨exTrace.take 7, exTrace.drop 7, by decide, by decide, by decide⟩⟩
  have : Before exTrace (.exec 10) (.unwatch 1) := ⟨exTrace.take 7, exTrace.drop 7, by decide, by decide, by decide⟩
  have hn : exTrace.Nodup := by decide
  exact Before.irrefl hn (hb.trans hn this)

/-- **C96, negation.**  A connection has got its OK; then a command comes and is executed; it is not shown, since the thread has not yet entered the connection in
the list. -/
theorem command_after_ok_not_shown : ∃ t s, Runs exCmds t s ∧ Before t (.ok 1) (.begin 10) ∧ Ev.exec 10 ∈ t ∧ Ev.unwatch 1 ∉ t ∧ Ev.watch 1 ∈ t ∧
    s.seen 1 = [] := by
  have h := ((((Runs.start (cmds := exCmds)).step (.ok (c := 1) rfl)).step (.begin (i := 10) rfl)).step
    (.exec (i := 10) (.inl (by decide +kernel)))).step (.watch (c := 1) rfl)
  exact ⟨_, _, h, ⟨[.ok 1], [.begin 10, .exec 10, .watch 1], rfl, by decide, by decide⟩, by decide, by decide, by decide, by decide +kernel⟩

/-- **C96, negation.**  Commands of two threads may be shown in one order and executed in the other. -/
theorem shown_in_other_order : ∃ t s, Runs exCmds t s ∧ s.seen 1 = [10, 11] ∧ Before t (.exec 11) (.exec 10) := by
  have h := ((((((((Runs.start (cmds := exCmds)).step (.ok (c := 1) rfl)).step (.watch (c := 1) rfl)).step (.begin (i := 10) rfl)).step
    (.line (i := 10) (by decide +kernel))).step (.begin (i := 11) rfl)).step (.line (i := 11) (by decide +kernel))).step (.exec (i := 11) (.inr rfl))).step
    (.exec (i := 10) (.inr rfl))
  exact ⟨_, _, h, by decide +kernel, ⟨[.ok 1, .watch 1, .begin 10, .line 10, .begin 11, .line 11, .exec 11], [.exec 10], rfl, by decide, by decide⟩⟩

end Verif.Main.MonSession
