import Mathlib.Tactic.Common
import Verif.Resp.Stream
import Verif.Resp.Props

/-!
C75: requests of one connection are executed one at a time, in order, also if some of them are done in the background; and all that were received
before the client closed its side.

One connection in the loop of `qthread`, `/repo/src/net.c:886-940`, with `evdata`, `/repo/src/conn.c:82-191`, for a connection whose protocol is known.
Commands done in the background: KEYS, FLUSHALL, SAVE, LOAD, SWEEP, PURGE, MONITOR, DEBUG DETACH (those calling `conn_bgwork`).
-/

namespace Verif.Net.Bg

open Verif.Resp

/-- How `evcommand` leaves the connection: going on, closed, or with background work. -/
inductive Mode where
  | go | close | bg
deriving DecidableEq, Repr

/-- A connection.  `packet`: `conn->packet`; `job`: the request whose background work is not done (`conn->bgctx`, `/repo/src/net.c:264`); `st`: everything else.
`started` and `finished` (requests) and `quit` (closed by a request) are not in the code. -/
structure S (α σ : Type) where
  packet : Bytes
  closed : Bool
  job : Option α
  st : σ
  started : List α
  finished : List α
  quit : Bool
deriving DecidableEq

/-- A new connection. -/
def new {α σ : Type} (st : σ) : S α σ := ⟨[], false, none, st, [], [], false⟩

section
variable {α σ : Type} (parse : Bytes → PR (α × Nat)) (exec : α → σ → σ × Mode) (fin : α → σ → σ)

/-- The loop of `evdata`, `/repo/src/conn.c:113-171`, with the end of background work as in line 164; what is left over goes to the packet (175-189). -/
def drain : Nat → Bytes → S α σ → PR (S α σ)
  | 0, s, c => .got { c with packet := s }
  | fuel + 1, s, c =>
    if s = [] then .got { c with packet := [] }
    else
      match parse s with
      | .more => .got { c with packet := s }
      | .ub => .ub
      | .err => .got { c with packet := s, closed := true, quit := true }
      | .got (a, n) =>
        let r := exec a c.st
        match r.2 with
        | .go => drain fuel (s.drop n) { c with st := r.1, started := c.started ++ [a], finished := c.finished ++ [a] }
        | .close => .got { c with st := r.1, started := c.started ++ [a], finished := c.finished ++ [a], packet := s.drop n, closed := true, quit := true }
        | .bg => .got { c with st := r.1, started := c.started ++ [a], packet := s.drop n, job := some a }

/-- What `read` returns: bytes, nothing yet (EAGAIN), or end of file or an error. -/
inductive Rd where
  | data (d : Bytes)
  | again
  | stop

/-- The bytes read. -/
def Rd.bytes : Rd → Bytes
  | .data d => d
  | _ => []

/-- `handle_read`, `/repo/src/net.c:654-679`, and `evdata` for what it enqueues (`qprocess`, 787-800). -/
def handle (r : Rd) (c : S α σ) : PR (S α σ) :=
  match r with
  | .stop => .got { c with closed := true }
  | r => drain parse exec (c.packet ++ r.bytes).length (c.packet ++ r.bytes) c

/-- The first half of `qattach`, `/repo/src/net.c:709-718`: the end of the background work. -/
def attach (a : α) (c : S α σ) : S α σ := { c with st := fin a c.st, finished := c.finished ++ [a], job := none }

/-- The states of a connection, with the bytes read so far, and whether after background work a read ended the connection, or a write failed. -/
inductive Reach (st0 : σ) : Bytes → Bool → S α σ → Prop
  | new : Reach st0 [] false (new st0)
  /-- An event of a connection that does no background work: `qaccept`, `qread`. -/
  | read {d b c c'} (r : Rd) : Reach st0 d b c → c.job = none → c.closed = false → handle parse exec r c = .got c' → Reach st0 (d ++ r.bytes) b c'
  /-- The background work is done: `qattach`, `qread`. -/
  | attach {d b c c' a} (r : Rd) : Reach st0 d b c → c.job = some a → handle parse exec r (attach fin a c) = .got c' →
      Reach st0 (d ++ r.bytes) (b || match r with | .stop => true | _ => false) c'
  /-- The same, but the reply cannot be written. -/
  | broken {d b c a} : Reach st0 d b c → c.job = some a → Reach st0 d true { attach fin a c with closed := true }
  /-- Others change the world. -/
  | other {d b c} (f : σ → σ) : Reach st0 d b c → Reach st0 d b { c with st := f c.st }

end

section
variable {α σ : Type} {parse : Bytes → PR (α × Nat)} {exec : α → σ → σ × Mode} {fin : α → σ → σ}

theorem drain_run {cs : List α} {ws : List Bytes} (h : List.Forall₂ (Framed parse) cs ws) {data : Bytes} (hd : data <+: ws.flatten)
    {fuel : Nat} (hf : data.length ≤ fuel) {c : S α σ} (hj : c.job = none) (hc : c.closed = false) (hq : c.quit = false) :
    ∃ c' k, drain parse exec fuel data c = .got c' ∧ k ≤ cs.length ∧ c'.started = c.started ++ cs.take k ∧
      c'.finished ++ c'.job.toList = c.finished ++ cs.take k ∧ data = (ws.take k).flatten ++ c'.packet ∧
      (c'.job = none → c'.closed = false → Received ws data k c'.packet) ∧ (c'.closed = c'.quit) ∧ (c'.job ≠ none → c'.closed = false) := by
  induction h generalizing data fuel c with
  | nil =>
    have : data = [] := by simpa using hd
    subst this
    refine ⟨{ c with packet := [] }, 0, ?_, by simp, by simp, by simp [hj], by simp, fun _ _ => by simp [Received], by simp [hc, hq], by simp [hc]⟩
    cases fuel <;> simp [drain]
  | @cons a w cs ws ha h' ih =>
    obtain ⟨hw, hparse, hcut⟩ := ha
    by_cases hl : w.length ≤ data.length
    · rw [List.flatten_cons] at hd
      obtain ⟨d, rfl⟩ := List.prefix_of_prefix_length_le (List.prefix_append w ws.flatten) hd hl
      have hd' : d <+: ws.flatten := (List.prefix_append_right_inj w).1 hd
      have hwl : 0 < w.length := List.length_pos_iff.2 hw
      rw [List.length_append] at hf
      obtain ⟨fuel, rfl⟩ : ∃ f, fuel = f + 1 := ⟨fuel - 1, by omega⟩
      rw [drain, if_neg (by simp [hw]), hparse d]
      simp only [List.drop_left]
      cases hm : (exec a c.st).2 with
      | go =>
        simp only []
        obtain ⟨c', k, h1, h2, h3, h4, h5, h6, h7, h8⟩ := ih hd' (fuel := fuel) (by omega)
          (c := { c with st := (exec a c.st).1, started := c.started ++ [a], finished := c.finished ++ [a] }) hj hc hq
        refine ⟨c', k + 1, h1, by simpa using h2, by rw [h3]; simp, by rw [h4]; simp, ?_, ?_, h7, h8⟩
        · rw [List.take_succ_cons, List.flatten_cons, List.append_assoc, ← h5]
        · intro a1 a2
          obtain ⟨g1, g2, g3⟩ := h6 a1 a2
          refine ⟨by rw [List.take_succ_cons, List.flatten_cons, List.append_assoc, ← g1], by simpa using g2, ?_⟩
          rcases g3 with ⟨g3, g4⟩ | ⟨w', g3, g4⟩
          · exact Or.inl ⟨by simp [g3], g4⟩
          · exact Or.inr ⟨w', by simpa using g3, g4⟩
      | close =>
        exact ⟨_, 1, rfl, by simp, by simp, by simp [hj], by simp, by simp, rfl, by simp [hj]⟩
      | bg =>
        exact ⟨_, 1, rfl, by simp, by simp, by simp, by simp, by simp, by simp [hc, hq], by simp [hc]⟩
    · have hp : data <+: w := by
        rw [List.flatten_cons] at hd
        exact List.prefix_of_prefix_length_le hd (List.prefix_append w ws.flatten) (by omega)
      have hne : data ≠ w := by rintro rfl; omega
      refine ⟨{ c with packet := data }, 0, ?_, by simp, by simp, by simp [hj], by simp, fun _ _ => ?_, by simp [hc, hq], by simp [hc]⟩
      · cases fuel with
        | zero => rfl
        | succ fuel =>
          rw [drain]
          by_cases hnil : data = []
          · subst hnil; simp
          · rw [if_neg hnil, hcut _ hp hne hnil]
      · exact ⟨by simp, by simp, Or.inr ⟨w, by simp, hp, hne⟩⟩

/-- What holds of a connection that has read `d`. -/
structure Inv (cs : List α) (ws : List Bytes) (d : Bytes) (b : Bool) (c : S α σ) (k : Nat) : Prop where
  le : k ≤ cs.length
  started : c.started = cs.take k
  order : c.finished ++ c.job.toList = c.started
  data : d = (ws.take k).flatten ++ c.packet
  idle : c.job = none → c.quit = false → (c.closed = true → b = false) → ∃ tail, Received ws d k tail
  open_ : c.closed = false → c.quit = false
  busy : c.job ≠ none → c.closed = false

theorem received_full {ws : List Bytes} {k k' : Nat} {p : Bytes} (hk : k ≤ ws.length) {d : Bytes} (hd : d = (ws.take k).flatten ++ p) {t : Bytes}
    (h : Received (ws.drop k) p k' t) : Received ws d (k + k') t := by
  obtain ⟨g1, g2, g3⟩ := h
  have hdl : (ws.drop k).length = ws.length - k := List.length_drop
  refine ⟨?_, by omega, ?_⟩
  · rw [hd, g1, ← List.append_assoc, ← List.flatten_append, List.take_add]
  · rcases g3 with ⟨g3, g4⟩ | ⟨w, g3, g4⟩
    · exact Or.inl ⟨by omega, g4⟩
    · exact Or.inr ⟨w, by rw [List.getElem?_drop] at g3; exact g3, g4⟩

theorem drain_inv {cs : List α} {ws : List Bytes} (h : List.Forall₂ (Framed parse) cs ws) {d : Bytes} (b : Bool) {c c' : S α σ} {k : Nat}
    (hk : k ≤ cs.length) (hs : c.started = cs.take k) (ho : c.finished = c.started) (hda : d = (ws.take k).flatten ++ c.packet) (hq : c.quit = false)
    (hj : c.job = none) (hc : c.closed = false) {x : Bytes}
    (hd : d ++ x <+: ws.flatten) (he : drain parse exec (c.packet ++ x).length (c.packet ++ x) c = .got c') : ∃ k', Inv cs ws (d ++ x) b c' k' := by
  have hlen : ws.length = cs.length := h.length_eq.symm
  have hfl : ws.flatten = (ws.take k).flatten ++ (ws.drop k).flatten := by rw [← List.flatten_append, List.take_append_drop]
  have hd' : c.packet ++ x <+: (ws.drop k).flatten := by
    rw [hda, hfl, List.append_assoc] at hd
    exact (List.prefix_append_right_inj _).1 hd
  obtain ⟨c2, k', h1, h2, h3, h4, h5, h6, h7, h8⟩ := drain_run (exec := exec) (List.forall₂_drop k h) hd' (Nat.le_refl _) hj hc hq
  rw [he] at h1
  cases h1
  have hdl : (cs.drop k).length = cs.length - k := List.length_drop
  have hdata : d ++ x = (ws.take (k + k')).flatten ++ c'.packet := by
    rw [hda, List.append_assoc, h5, ← List.append_assoc, ← List.flatten_append, List.take_add]
  refine ⟨k + k', ⟨by omega, by rw [h3, hs, List.take_add], by rw [h4, h3, ho], hdata, ?_, by rw [h7]; exact id, h8⟩⟩
  intro a1 a2 _
  rw [h7] at h6
  exact ⟨_, received_full (by omega) (by rw [hda, List.append_assoc]) (h6 a1 a2)⟩

theorem reach_inv {cs : List α} {ws : List Bytes} (h : List.Forall₂ (Framed parse) cs ws) {st0 : σ} {d : Bytes} {b : Bool} {c : S α σ}
    (hr : Reach parse exec fin st0 d b c) (hd : d <+: ws.flatten) : ∃ k, Inv cs ws d b c k := by
  induction hr with
  | new =>
    refine ⟨0, ⟨by simp, by simp [new], by simp [new], by simp [new], fun _ _ _ => ?_, by simp [new], by simp [new]⟩⟩
    have := received_exists (List.nil_prefix (l := ws.flatten))
    refine ⟨[], by simp, by simp, ?_⟩
    cases ws with
    | nil => exact Or.inl ⟨rfl, rfl⟩
    | cons w ws =>
      cases h with
      | cons ha _ => exact Or.inr ⟨w, by simp, List.nil_prefix, fun hc => ha.1 hc.symm⟩
  | @read d b c c' r _ hj hc he ih =>
    obtain ⟨k, hi⟩ := ih ((List.prefix_append _ _).trans hd)
    have ho := hi.order
    rw [hj] at ho
    cases r with
    | stop =>
      cases he
      have hid := hi.idle hj (hi.open_ hc) (by rw [hc]; simp)
      rw [show Rd.stop.bytes = [] from rfl, List.append_nil]
      exact ⟨k, ⟨hi.le, hi.started, hi.order, hi.data, fun _ _ _ => hid, by simp, by simp [hj]⟩⟩
    | data x => exact drain_inv h b hi.le hi.started (by simpa using ho) hi.data (hi.open_ hc) hj hc hd he
    | again => exact drain_inv h b hi.le hi.started (by simpa using ho) hi.data (hi.open_ hc) hj hc hd he
  | @attach d b c c' a r _ hj he ih =>
    obtain ⟨k, hi⟩ := ih ((List.prefix_append _ _).trans hd)
    have hc : c.closed = false := hi.busy (by rw [hj]; simp)
    have ho := hi.order
    rw [hj] at ho
    cases r with
    | stop =>
      cases he
      refine ⟨k, ⟨hi.le, hi.started, by simpa [attach] using ho, by
        rw [show Rd.stop.bytes = [] from rfl, List.append_nil]; exact hi.data, fun _ _ hb => ?_, by simp, by simp [attach]⟩⟩
      simp at hb
    | data x =>
      exact drain_inv h _ hi.le (c := attach fin a c) hi.started (by simpa [attach] using ho) hi.data (hi.open_ hc) rfl hc hd he
    | again =>
      exact drain_inv h _ hi.le (c := attach fin a c) hi.started (by simpa [attach] using ho) hi.data (hi.open_ hc) rfl hc hd he
  | @broken d b c a _ hj ih =>
    obtain ⟨k, hi⟩ := ih hd
    have ho := hi.order
    rw [hj] at ho
    refine ⟨k, ⟨hi.le, hi.started, by simpa [attach] using ho, hi.data, fun _ _ hb => ?_, by simp, by simp [attach]⟩⟩
    simp at hb
  | other f _ ih =>
    obtain ⟨k, hi⟩ := ih hd
    exact ⟨k, ⟨hi.le, hi.started, hi.order, hi.data, hi.idle, hi.open_, hi.busy⟩⟩

/-- **C75**, order: whatever commands are done in the background, however long they take and whatever chunks the requests come in, the requests that are started
are the first ones received, in order; and none is started before all earlier ones are finished. -/
theorem requests_in_order {cs : List α} {ws : List Bytes} (h : List.Forall₂ (Framed parse) cs ws) {st0 : σ} {d : Bytes} {b : Bool} {c : S α σ}
    (hr : Reach parse exec fin st0 d b c) (hd : d <+: ws.flatten) :
    ∃ k, c.started = cs.take k ∧ (ws.take k).flatten <+: d ∧ c.finished ++ c.job.toList = c.started := by
  obtain ⟨k, hi⟩ := reach_inv h hr hd
  exact ⟨k, hi.started, by rw [hi.data]; exact List.prefix_append _ _, hi.order⟩

/-- **C75** (`_partial`: no read ends the connection, and no write fails, right after background work).  As soon as no background work is going on, all requests received
have been executed, also if the client has closed its side; unless a request closed the connection. -/
theorem received_executed_partial {cs : List α} {ws : List Bytes} (h : List.Forall₂ (Framed parse) cs ws) {st0 : σ} {d : Bytes} {c : S α σ}
    (hr : Reach parse exec fin st0 d false c) (hd : d <+: ws.flatten) (hj : c.job = none) (hq : c.quit = false) :
    ∃ k tail, Received ws d k tail ∧ c.finished = cs.take k := by
  obtain ⟨k, hi⟩ := reach_inv h hr hd
  obtain ⟨tail, ht⟩ := hi.idle hj hq (fun _ => rfl)
  have := hi.order
  rw [hj] at this
  simp only [Option.toList_none, List.append_nil] at this
  exact ⟨k, tail, ht, by rw [this, hi.started]⟩

end

namespace Example

/-- `KEYS *` and `SET a b`. -/
def reqs : List (List Bytes) := [[[75, 69, 89, 83], [42]], [[83, 69, 84], [97], [98]]]

/-- The same on the wire. -/
def wire : List Bytes :=
  [[42, 50, 13, 10, 36, 52, 13, 10, 75, 69, 89, 83, 13, 10, 36, 49, 13, 10, 42, 13, 10],
   [42, 51, 13, 10, 36, 51, 13, 10, 83, 69, 84, 13, 10, 36, 49, 13, 10, 97, 13, 10, 36, 49, 13, 10, 98, 13, 10]]

/-- KEYS is done in the background (`cmdKEYS`, `/repo/src/cmds.c:565-585`), SET is not. -/
def exec : List Bytes → Unit → Unit × Mode := fun a st => (st, if a.head? = some [75, 69, 89, 83] then .bg else .go)

theorem framed : List.Forall₂ (Framed parseCommandResp) reqs wire := by
  refine .cons (enc_framed ⟨[50], _, by unfold NumText; decide, by decide, .cons ⟨[52], by unfold NumText; decide, by decide, rfl⟩
    (.cons ⟨[49], by unfold NumText; decide, by decide, rfl⟩ .nil), rfl⟩) (.cons (enc_framed ⟨[51], _, by unfold NumText; decide, by decide,
    .cons ⟨[51], by unfold NumText; decide, by decide, rfl⟩ (.cons ⟨[49], by unfold NumText; decide, by decide, rfl⟩
    (.cons ⟨[49], by unfold NumText; decide, by decide, rfl⟩ .nil)), rfl⟩) .nil)

/-- Both requests in one chunk: KEYS is started, and SET waits. -/
def waiting : S (List Bytes) Unit := ⟨wire.getD 1 [], false, some (reqs.headD []), (), [reqs.headD []], [], false⟩

theorem reach_waiting : Reach parseCommandResp exec (fun _ => id) () wire.flatten false waiting := by
  refine .read (d := []) (.data wire.flatten) .new rfl rfl ?_
  have : handle parseCommandResp exec (.data wire.flatten) (new ()) = .got waiting := by decide +kernel
  exact this

/-- Hypotheses of `requests_in_order` and `received_executed_partial`: then nothing is to be read (yet), and SET is executed; then the client closes its side. -/
example : List.Forall₂ (Framed parseCommandResp) reqs wire ∧
    ∃ c, Reach parseCommandResp exec (fun _ => id) () wire.flatten false c ∧ c.job = none ∧ c.quit = false ∧ c.closed = true ∧ c.finished = reqs := by
  refine ⟨framed, { (⟨[], true, none, (), reqs, reqs, false⟩ : S (List Bytes) Unit) with }, ?_, rfl, rfl, rfl, rfl⟩
  have h1 := Reach.attach (c' := ⟨[], false, none, (), reqs, reqs, false⟩) .again reach_waiting rfl (by decide +kernel)
  exact .read .stop h1 rfl rfl rfl

/-- **C75, negation.**  If the client has closed its side when KEYS is done, SET is never executed, though it was received long before. -/
theorem half_closed_client_loses_requests :
    ∃ c, Reach parseCommandResp exec (fun _ => id) () wire.flatten true c ∧ c.job = none ∧ c.quit = false ∧ c.closed = true ∧
      c.finished = [[[75, 69, 89, 83], [42]]] :=
  ⟨⟨wire.getD 1 [], true, none, (), [reqs.headD []], [reqs.headD []], false⟩, .attach .stop reach_waiting rfl rfl, rfl, rfl, rfl, rfl⟩

end Example

end Verif.Net.Bg
