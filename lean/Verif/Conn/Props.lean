import Mathlib.Tactic.Common
import Verif.Conn.Model
import Verif.Http.Props
import Verif.Mc.Props
import Verif.Cmd.TableProps

/-!
C40 for all protocols: without the password nothing can be read or changed.  C39: `noreply` is ignored.
-/

namespace Verif.Conn

open Verif.Resp Verif.Cache Verif.Cmd

/-! ### C40 -/

/-- `auth`. -/
def authWord : Bytes := [97, 117, 116, 104]

/-- The request presents the password `pw`, in the way its protocol provides for. -/
def Presents (pw : Bytes) : Req → Prop
  | .resp args => ∃ a, Spells a authWord ∧ args = [a, pw]
  | .mc (.cmd args _) => ∃ a, Spells a authWord ∧ args = [a, pw]
  | .mc (.bad _) => False
  | .http data _ => Http.Presents pw data
  | .pg m => m = .typed 112 (pw ++ [0])

/-- Answers that tell nothing about the contents of the cache: errors about authentication, about the form of a request and about its
protocol, and the messages of Postgres that belong to the preparation of statements, to the negotiation of TLS and of authentication. -/
def Refusal : Item → Prop
  | .cmd w => w = .err .noAuth ∨ w = .err .wrongPass ∨ w = .err .wrongNumArgs ∨ w = .err .syntaxError ∨ w = .raw authRequired
  | .pg r => r ≠ .authOk ∧ (∀ t, r ≠ .tag t) ∧ ∀ t, r ≠ .badType t
  | .mc _ => True
  | .protocolError => True

theorem cmdAUTH_refuses (e : Env) (pw : Bytes) (args : List Bytes) (st : ConnSt) (h : ¬ ∃ a, Spells a authWord ∧ args = [a, pw]) :
    (cmdAUTH e pw args st).2 = st ∧ (∀ w ∈ (cmdAUTH e pw args st).1, Refusal (.cmd w)) ∧ W.close ∉ (cmdAUTH e pw args st).1 := by
  unfold cmdAUTH
  by_cases h1 : argeq (args.headD []) [97, 117, 116, 104] = false
  · rw [if_pos h1]
    by_cases h2 : e.proto = .memcache <;> simp [h2, Refusal]
  rw [if_neg h1]
  by_cases h2 : args.length = 3
  · rw [if_pos h2]; simp [Refusal]
  rw [if_neg h2]
  by_cases h3 : args.length > 3
  · rw [if_pos h3]; simp [Refusal]
  rw [if_neg h3]
  split
  · rename_i a w
    by_cases h4 : w ≠ pw
    · rw [if_pos h4]; simp [Refusal]
    · exfalso
      simp only [ne_eq, not_not] at h4
      subst h4
      refine h ⟨a, (spells_iff _ _ (by decide)).2 ?_, rfl⟩
      simpa [argeq_iff, authWord] using h1
  · simp [Refusal]

/-- The state of a connection on which nothing has happened yet. -/
structure Outside {ω : Type} (w : ω) (st : St ω) : Prop where
  world : st.world = w
  auth : st.auth.auth = false
  pgAuth : st.pg.auth = false
  pgReady : st.pg.ready = false
  out : ∀ i ∈ st.out, Refusal i

theorem command_outside {ω : Type} (S : Server ω) (hpw : S.password ≠ []) (p : Proto) (hp : p ≠ .http) (args : List Bytes) {w : ω} {st : St ω}
    (h : Outside w st) (hno : ¬ ∃ a, Spells a authWord ∧ args = [a, S.password]) :
    Outside w (command S p args st).1 ∧ (command S p args st).1.log = st.log := by
  obtain ⟨h1, h2, h3, h4, h5⟩ := h
  have he : evcommand { S.clock st.world with proto := p } S.password S.other args st.auth =
      .ret (cmdAUTH { S.clock st.world with proto := p } S.password args st.auth) := by
    unfold evcommand
    exact if_pos ⟨hpw, h2, hp⟩
  obtain ⟨ha, hb, hc⟩ := cmdAUTH_refuses { S.clock st.world with proto := p } S.password args st.auth hno
  unfold command
  rw [he]
  simp only [run]
  refine ⟨⟨h1, by rw [ha]; exact h2, h3, h4, ?_⟩, trivial⟩
  intro i hi
  simp only [List.mem_append, List.mem_map] at hi
  rcases hi with hi | ⟨x, hx, rfl⟩
  · exact h5 i hi
  · exact hb x hx

/-- The message does not change the progress of authentication. -/
def Keeps (pg : Pg.State) : Pg.MRes → Prop
  | .ok _ pg' => pg'.auth = pg.auth ∧ pg'.ready = pg.ready
  | _ => True

theorem parseQ_keeps (hash : Nat → Nat) (pg : Pg.State) (s : Bytes) : Keeps pg (Pg.parseQ hash pg s) := by
  unfold Pg.parseQ
  repeat' split
  all_goals simp [Keeps]

theorem parseP_keeps (hash : Nat → Nat) (pg : Pg.State) (s : Bytes) : Keeps pg (Pg.parseP hash pg s) := by
  unfold Pg.parseP
  repeat' split
  all_goals simp [Keeps]

theorem parseE_keeps (pg : Pg.State) (s : Bytes) : Keeps pg (Pg.parseE pg s) := by
  unfold Pg.parseE
  repeat' split
  all_goals simp [Keeps]

theorem parseD_keeps (pg : Pg.State) (s : Bytes) : Keeps pg (Pg.parseD pg s) := by
  unfold Pg.parseD
  repeat' split
  all_goals simp [Keeps]

theorem parseB_keeps (pg : Pg.State) (s : Bytes) : Keeps pg (Pg.parseB pg s) := by
  unfold Pg.parseB
  repeat' split
  all_goals simp [Keeps]

theorem parsep_keeps (pw : Bytes) (pg : Pg.State) (s : Bytes) (h : s ≠ pw ++ [0]) : Keeps pg (Pg.parsep pw pg s) := by
  unfold Pg.parsep
  split
  · rename_i w hw
    split
    · trivial
    · rename_i hx
      simp only [ne_eq, not_not] at hx
      subst hx
      exact absurd (Http.upTo_split hw) h
  · trivial

theorem handle_keeps (hash : Nat → Nat) (pw : Bytes) (pg : Pg.State) (m : Pg.Msg) (hno : m ≠ .typed 112 (pw ++ [0])) :
    Keeps pg (Pg.handle hash pw pg m) := by
  have key : ∀ r : Pg.MRes, Keeps { pg with error := false } r → Keeps pg r := by
    intro r h
    cases r <;> simpa [Keeps] using h
  apply key
  unfold Pg.handle
  cases m with
  | magic code s =>
    simp only
    repeat' split
    all_goals simp [Keeps]
  | short t =>
    simp only
    split <;> simp [Keeps]
  | typed t s =>
    simp only
    by_cases h1 : t = 81
    · rw [if_pos h1]; exact parseQ_keeps _ _ _
    rw [if_neg h1]
    by_cases h2 : t = 80
    · rw [if_pos h2]; exact parseP_keeps _ _ _
    rw [if_neg h2]
    by_cases h3 : t = 88
    · rw [if_pos h3]; split <;> simp [Keeps]
    rw [if_neg h3]
    by_cases h4 : t = 69
    · rw [if_pos h4]; exact parseE_keeps _ _
    rw [if_neg h4]
    by_cases h5 : t = 112
    · rw [if_pos h5]; exact parsep_keeps _ _ _ (fun hc => hno (by rw [h5, hc]))
    rw [if_neg h5]
    by_cases h6 : t = 68
    · rw [if_pos h6]; exact parseD_keeps _ _
    rw [if_neg h6]
    by_cases h7 : t = 66
    · rw [if_pos h7]; exact parseB_keeps _ _
    rw [if_neg h7]
    by_cases h8 : t = 83
    · rw [if_pos h8]; split <;> simp [Keeps]
    rw [if_neg h8]
    simp [Keeps]

theorem ite_both {α : Type} {P : α → Prop} {c : Prop} [Decidable c] {a b : α} (ha : P a) (hb : P b) : P (if c then a else b) := by
  split <;> assumption

/-- A response that grants nothing. -/
def Grants (x : List Pg.Reply × Pg.State × Bool × Bool) : Prop :=
  ¬ ((∀ r ∈ x.1, Refusal (.pg r)) ∧ x.2.1.auth = false ∧ x.2.1.ready = false ∧ x.2.2.1 = false)

theorem respond_outside (pw : Bytes) (hpw : pw ≠ []) (pg : Pg.State) (ha : pg.auth = false) (hr : pg.ready = false) :
    (∀ r ∈ (Pg.respond pw pg).1, Refusal (.pg r)) ∧ (Pg.respond pw pg).2.1.auth = false ∧ (Pg.respond pw pg).2.1.ready = false ∧
      (Pg.respond pw pg).2.2.1 = false := by
  have key : ¬ Grants (Pg.respond pw pg) := by
    unfold Pg.respond
    rw [if_neg (show ¬ pg.auth = true by simp [ha]), if_pos hpw]
    repeat' refine ite_both (P := fun x => ¬ Grants x) ?_ ?_
    all_goals simp [Grants, Refusal, ha, hr]
  unfold Grants at key
  rwa [not_not] at key

theorem exec_log {ω : Type} (S : Server ω) (r : Req) (st : St ω) : (exec S r st).1.log = st.log ++ [r] := by
  cases r with
  | resp args => simp only [exec]; split <;> rfl
  | mc q =>
    cases q with
    | bad e => rfl
    | cmd args nr => simp only [exec]; split <;> rfl
  | http data args => rfl
  | pg m =>
    simp only [exec]
    cases Pg.handle S.hash S.password st.pg m with
    | fail => rfl
    | hang => rfl
    | ok args pg =>
      simp only
      by_cases h1 : args = []
      · rw [if_pos h1]
      rw [if_neg h1]
      by_cases h2 : pg.ready = false
      · rw [if_pos h2]
      rw [if_neg h2]
      cases Pg.precommand pg args <;> rfl

theorem exec_outside {ω : Type} (S : Server ω) (hpw : S.password ≠ []) (r : Req) {w : ω} {st : St ω} (h : Outside w st)
    (hsrc : ∀ data args, r = .http data args → Http.parseHttp S.password data = .got args) :
    (exec S r st).1.log = st.log ++ [r] ∧ (¬ Presents S.password r → Outside w (exec S r st).1) := by
  cases r with
  | resp args =>
    simp only [exec]
    by_cases h1 : args = []
    · rw [if_pos h1]
      exact ⟨rfl, fun _ => ⟨h.world, h.auth, h.pgAuth, h.pgReady, h.out⟩⟩
    rw [if_neg h1]
    refine ⟨rfl, fun hno => ?_⟩
    exact (command_outside S hpw .resp (by simp) args (st := { st with log := st.log ++ [.resp args] })
      ⟨h.world, h.auth, h.pgAuth, h.pgReady, h.out⟩ hno).1
  | mc q =>
    cases q with
    | bad e =>
      refine ⟨rfl, fun _ => ⟨h.world, h.auth, h.pgAuth, h.pgReady, ?_⟩⟩
      intro i hi
      simp only [exec, List.mem_append, List.mem_singleton] at hi
      rcases hi with hi | rfl
      · exact h.out i hi
      · trivial
    | cmd args nr =>
      simp only [exec]
      by_cases h1 : args = []
      · rw [if_pos h1]
        refine ⟨rfl, fun _ => ⟨h.world, h.auth, h.pgAuth, h.pgReady, ?_⟩⟩
        intro i hi
        simp only [List.mem_append, List.mem_singleton] at hi
        rcases hi with hi | rfl
        · exact h.out i hi
        · trivial
      rw [if_neg h1]
      refine ⟨rfl, fun hno => ?_⟩
      exact (command_outside S hpw .memcache (by simp) args (st := { st with log := st.log ++ [.mc (.cmd args nr)] })
        ⟨h.world, h.auth, h.pgAuth, h.pgReady, h.out⟩ hno).1
  | http data args =>
    refine ⟨rfl, fun hno => ?_⟩
    exact absurd (Http.http_needs_password _ _ _ hpw (hsrc data args rfl)) hno
  | pg m =>
    have hk := handle_keeps S.hash S.password st.pg m
    simp only [exec]
    cases hh : Pg.handle S.hash S.password st.pg m with
    | fail =>
      refine ⟨rfl, fun _ => ⟨h.world, h.auth, h.pgAuth, h.pgReady, ?_⟩⟩
      intro i hi
      simp only [List.mem_append, List.mem_singleton] at hi
      rcases hi with hi | rfl
      · exact h.out i hi
      · trivial
    | hang => exact ⟨rfl, fun _ => ⟨h.world, h.auth, h.pgAuth, h.pgReady, h.out⟩⟩
    | ok args pg =>
      simp only
      rw [hh] at hk
      by_cases h1 : args = []
      · rw [if_pos h1]
        refine ⟨rfl, fun hno => ?_⟩
        obtain ⟨ka, kr⟩ := hk hno
        obtain ⟨ra, rb, rc, rd⟩ := respond_outside S.password hpw pg (ka.trans h.pgAuth) (kr.trans h.pgReady)
        refine ⟨h.world, ?_, rb, rc, ?_⟩
        · simp only [rd]; exact h.auth
        intro i hi
        simp only [List.mem_append, List.mem_map] at hi
        rcases hi with hi | ⟨x, hx, rfl⟩
        · exact h.out i hi
        · exact ra x hx
      rw [if_neg h1]
      by_cases h2 : pg.ready = false
      · rw [if_pos h2]
        refine ⟨rfl, fun hno => ?_⟩
        exact ⟨h.world, h.auth, (hk hno).1.trans h.pgAuth, h2, h.out⟩
      rw [if_neg h2]
      constructor
      · cases Pg.precommand pg args <;> rfl
      · exact fun hno => absurd ((hk hno).2.trans h.pgReady) h2

/-- Requests parsed are logged, and as long as none presents the password, nothing has happened. -/
def Safe {ω : Type} (pw : Bytes) (w : ω) (st : St ω) : Prop := (∀ r ∈ st.log, ¬ Presents pw r) → Outside w st

theorem parse_http {pw : Bytes} {p : Proto} {s data : Bytes} {args : List Bytes} {n : Nat} (h : parse pw p s = .got (.http data args, n)) :
    Http.parseHttp pw data = .got args := by
  cases p with
  | none => simp [parse] at h
  | resp => simp only [parse] at h; cases hx : parseCommandResp s <;> simp [hx, PR.bind] at h
  | memcache => simp only [parse] at h; cases hx : Mc.parseMc s <;> simp [hx, PR.bind] at h
  | postgres => simp only [parse] at h; cases hx : Pg.frame s <;> simp [hx, PR.bind] at h
  | http =>
    simp only [parse] at h
    cases hx : Http.parseHttp pw s with
    | more => simp [hx] at h
    | err e => simp [hx] at h
    | got as =>
      simp only [hx, PR.got.injEq, Prod.mk.injEq, Req.http.injEq] at h
      obtain ⟨⟨rfl, rfl⟩, _⟩ := h
      exact hx

theorem exec_safe {ω : Type} (S : Server ω) (hpw : S.password ≠ []) (p : Proto) (s : Bytes) (r : Req) (n : Nat)
    (hsrc : parse S.password p s = .got (r, n)) {w : ω} {st : St ω} (h : Safe S.password w st) : Safe S.password w (exec S r st).1 := by
  intro hno
  rw [exec_log] at hno
  refine (exec_outside S hpw r (h fun x hx => hno x (by simp [hx])) ?_).2 (hno r (by simp))
  rintro data args rfl
  exact parse_http hsrc

theorem onErr_safe {ω : Type} {pw : Bytes} {w : ω} {st : St ω} (h : Safe pw w st) : Safe pw w (onErr st) := by
  intro hno
  obtain ⟨h1, h2, h3, h4, h5⟩ := h hno
  refine ⟨h1, h2, h3, h4, ?_⟩
  intro i hi
  simp only [onErr, List.mem_append, List.mem_singleton] at hi
  rcases hi with hi | rfl
  · exact h5 i hi
  · trivial

theorem drain_inv {α σ : Type} {P : σ → Prop} {parse : Bytes → PR (α × Nat)} {exec : Exec α σ} {onErr : σ → σ}
    (hx : ∀ s a n st, parse s = .got (a, n) → P st → P (exec a st).1) (he : ∀ st, P st → P (onErr st)) (fuel : Nat) (s : Bytes) (st : σ)
    (h : P st) {r : σ × Bool × Bytes} (hd : drain parse exec onErr fuel s st = .got r) : P r.1 := by
  induction fuel generalizing s st with
  | zero => simp only [drain, PR.got.injEq] at hd; subst hd; exact h
  | succ fuel ih =>
    rw [drain] at hd
    split at hd
    · simp only [PR.got.injEq] at hd; subst hd; exact h
    split at hd
    · simp only [PR.got.injEq] at hd; subst hd; exact h
    · simp at hd
    · simp only [PR.got.injEq] at hd; subst hd; exact he _ h
    · rename_i a n hp
      have h1 := hx s a n st hp h
      cases hq : exec a st with
      | mk st' close =>
        rw [hq] at hd h1
        simp only at hd h1
        split at hd
        · simp only [PR.got.injEq] at hd; subst hd; exact h1
        · exact ih _ _ h1 hd

/-- What holds of a new connection and is preserved by the requests holds whatever chunks are received. -/
theorem feed_inv {α σ : Type} {P : σ → Prop} {parse : Proto → Bytes → PR (α × Nat)} {exec : Exec α σ} {onErr : σ → σ}
    (hx : ∀ p s a n st, parse p s = .got (a, n) → P st → P (exec a st).1) (he : ∀ st, P st → P (onErr st)) (chunks : List Bytes) (c : Conn σ)
    (h : P c.st) {c' : Conn σ} (hf : feed parse exec onErr c chunks = .got c') : P c'.st := by
  have step : ∀ (c : Conn σ) (chunk : Bytes) (c' : Conn σ), P c.st → evdata parse exec onErr c chunk = .got c' → P c'.st := by
    intro c chunk c' h hd
    have go : ∀ p, ((drain (parse p) exec onErr (c.packet ++ chunk).length (c.packet ++ chunk) c.st).bind fun (st, closed, rest) =>
        .got ⟨rest, p, closed, st⟩) = .got c' → P c'.st := by
      intro p hp
      cases hq : drain (parse p) exec onErr (c.packet ++ chunk).length (c.packet ++ chunk) c.st with
      | got r =>
        rw [hq] at hp
        simp only [PR.bind, PR.got.injEq] at hp
        subst hp
        exact drain_inv (hx p) he _ _ _ h hq
      | more => rw [hq] at hp; simp [PR.bind] at hp
      | err => rw [hq] at hp; simp [PR.bind] at hp
      | ub => rw [hq] at hp; simp [PR.bind] at hp
    unfold evdata at hd
    split at hd
    · simp only [PR.got.injEq] at hd; subst hd; exact h
    simp only at hd
    split at hd
    · simp only [PR.got.injEq] at hd; subst hd; exact h
    split at hd
    · cases hs : sniff (c.packet ++ chunk) with
      | got o =>
        rw [hs] at hd
        cases o with
        | some p => exact go p hd
        | none =>
          simp only [PR.bind, PR.got.injEq] at hd
          subst hd
          exact he _ h
      | more => rw [hs] at hd; simp [PR.bind] at hd
      | err => rw [hs] at hd; simp [PR.bind] at hd
      | ub => rw [hs] at hd; simp [PR.bind] at hd
    · exact go _ hd
  induction chunks generalizing c with
  | nil => simp only [feed, PR.got.injEq] at hf; subst hf; exact h
  | cons chunk cs ih =>
    rw [feed] at hf
    cases hq : evdata parse exec onErr c chunk with
    | got c1 =>
      rw [hq] at hf
      exact ih c1 (step c chunk c1 h hq) hf
    | more => rw [hq] at hf; simp [PR.bind] at hf
    | err => rw [hq] at hf; simp [PR.bind] at hf
    | ub => rw [hq] at hf; simp [PR.bind] at hf

/-- **C40.**  When a password is configured, then whatever bytes arrive on a connection in whatever chunks, in whatever protocol: as long as
no request has presented the password, the world is as it was, the connection is not authenticated, and nothing but refusals has been
written.  The world is arbitrary, as is what the calls of the cache and the commands not modelled do to it. -/
theorem no_access_without_password {ω : Type} (S : Server ω) (hpw : S.password ≠ []) (w : ω) (chunks : List Bytes) {c : Conn (St ω)}
    (h : serve S w chunks = .got c) (hno : ∀ r ∈ c.st.log, ¬ Presents S.password r) :
    c.st.world = w ∧ c.st.auth.auth = false ∧ ∀ i ∈ c.st.out, Refusal i := by
  have hs : Safe S.password w c.st := by
    refine feed_inv (P := Safe S.password w) (fun p s a n st hp hst => exec_safe S hpw p s a n hp hst) (fun st => onErr_safe) chunks _ ?_ h
    exact fun _ => ⟨rfl, rfl, rfl, rfl, by simp [newConn, start]⟩
  exact ⟨(hs hno).world, (hs hno).auth, (hs hno).out⟩

/-! ### C39 -/

theorem exec_noreply {ω : Type} (S : Server ω) (args : List Bytes) (a b : Bool) (st : St ω) :
    (exec S (.mc (.cmd args a)) st).2 = (exec S (.mc (.cmd args b)) st).2 ∧
      ((exec S (.mc (.cmd args a)) st).1.world, (exec S (.mc (.cmd args a)) st).1.auth, (exec S (.mc (.cmd args a)) st).1.out) =
      ((exec S (.mc (.cmd args b)) st).1.world, (exec S (.mc (.cmd args b)) st).1.auth, (exec S (.mc (.cmd args b)) st).1.out) := by
  simp only [exec]
  by_cases h : args = []
  · rw [if_pos h, if_pos h]; exact ⟨rfl, rfl⟩
  · rw [if_neg h, if_neg h]; exact ⟨rfl, rfl⟩

theorem mc_framed {q : Mc.Req} {w : Bytes} (pw : Bytes) (h : Framed Mc.parseMc q w) : Framed (parse pw .memcache) (.mc q) w := by
  refine ⟨h.1, fun rest => ?_, fun p hp hne hn => ?_⟩
  · simp only [parse, h.2.1 rest, PR.bind]
  · simp only [parse, h.2.2 p hp hne hn, PR.bind]

theorem one_request {ω : Type} (S : Server ω) {q : Mc.Req} {w : Bytes} (h : Framed Mc.parseMc q w) (st : St ω) :
    ∃ c, feed (parse S.password) (exec S) onErr ⟨[], .memcache, false, st⟩ [w] = .got c ∧ (c.st, c.closed) = exec S (.mc q) st := by
  obtain ⟨c, k, tail, h1, h2, h3, _⟩ := stream_chunking (p := .memcache) (by simp) (parse S.password) (exec S) onErr
    (cs := [.mc q]) (ws := [w]) (.cons (mc_framed _ h) .nil) [w] (by simp) st .memcache (Or.inl rfl)
  refine ⟨c, h1, ?_⟩
  have hk : k = 1 := by
    obtain ⟨g1, g2, g3⟩ := h2
    simp only [List.length_singleton] at g2
    rcases Nat.lt_or_ge k 1 with hk | hk
    · exfalso
      have : k = 0 := by omega
      subst this
      simp at g1 g3
      obtain ⟨g3a, g3b⟩ := g3
      exact g3b g1.symm
    · omega
  rw [h3, hk]
  simp only [List.take_succ_cons, List.take_zero, runAll]
  cases exec S (.mc q) st with
  | mk a b => cases b <;> rfl

/-- **C39** (`_partial`: only that the request has the same effect on the cache and the connection as without `noreply`; that no reply is
written is false, see `noreply_is_answered`). -/
theorem noreply_same_effect_partial {ω : Type} (S : Server ω) {r : Mc.Store} {f : Nat} {e : Int} {t : Nat} (h : r.Ok f e t) (st : St ω) :
    ∃ c1 c2, feed (parse S.password) (exec S) onErr ⟨[], .memcache, false, st⟩ [{ r with noreply := true }.wire] = .got c1 ∧
      feed (parse S.password) (exec S) onErr ⟨[], .memcache, false, st⟩ [{ r with noreply := false }.wire] = .got c2 ∧
      c1.st.world = c2.st.world ∧ c1.st.auth = c2.st.auth ∧ c1.closed = c2.closed := by
  obtain ⟨c1, a1, b1⟩ := one_request S (Mc.store_framed (r := { r with noreply := true }) h) st
  obtain ⟨c2, a2, b2⟩ := one_request S (Mc.store_framed (r := { r with noreply := false }) h) st
  obtain ⟨k1, k2⟩ := exec_noreply S r.command true false st
  have e1 : c1.st = (exec S (.mc (.cmd r.command true)) st).1 := congrArg Prod.fst b1
  have e2 : c2.st = (exec S (.mc (.cmd r.command false)) st).1 := congrArg Prod.fst b2
  have e3 : c1.closed = (exec S (.mc (.cmd r.command true)) st).2 := congrArg Prod.snd b1
  have e4 : c2.closed = (exec S (.mc (.cmd r.command false)) st).2 := congrArg Prod.snd b2
  simp only [Prod.mk.injEq] at k2
  refine ⟨c1, c2, a1, a2, ?_, ?_, ?_⟩
  · rw [e1, e2]; exact k2.1
  · rw [e1, e2]; exact k2.2.1
  · rw [e3, e4]; exact k1

/-- **C39, negation**, for all storage requests: with `noreply` exactly the same is written as without. -/
theorem noreply_is_answered {ω : Type} (S : Server ω) {r : Mc.Store} {f : Nat} {e : Int} {t : Nat} (h : r.Ok f e t) (st : St ω) :
    ∃ c1 c2, feed (parse S.password) (exec S) onErr ⟨[], .memcache, false, st⟩ [{ r with noreply := true }.wire] = .got c1 ∧
      feed (parse S.password) (exec S) onErr ⟨[], .memcache, false, st⟩ [{ r with noreply := false }.wire] = .got c2 ∧
      c1.st.out = c2.st.out := by
  obtain ⟨c1, a1, b1⟩ := one_request S (Mc.store_framed (r := { r with noreply := true }) h) st
  obtain ⟨c2, a2, b2⟩ := one_request S (Mc.store_framed (r := { r with noreply := false }) h) st
  obtain ⟨k1, k2⟩ := exec_noreply S r.command true false st
  have e1 : c1.st = (exec S (.mc (.cmd r.command true)) st).1 := congrArg Prod.fst b1
  have e2 : c2.st = (exec S (.mc (.cmd r.command false)) st).1 := congrArg Prod.fst b2
  simp only [Prod.mk.injEq] at k2
  exact ⟨c1, c2, a1, a2, by rw [e1, e2]; exact k2.2.2⟩

/-! ### Examples -/

namespace Example

/-- A world that counts the calls; every call succeeds. -/
def server (pw : Bytes) : Server Nat := ⟨pw, fun n => n, fun _ => ⟨1000, 1000, false, .none⟩, fun _ n => (⟨.inserted, []⟩, n + 1), fun _ _ _ => .ret []⟩

/-- The world, whether authenticated, the output, and the requests. -/
def summary (x : PR (Conn (St Nat))) : Option (Nat × Bool × List Item × List Req) :=
  match x with
  | .got c => some (c.st.world, c.st.auth.auth, c.st.out, c.st.log)
  | _ => none

theorem summary_got {x : PR (Conn (St Nat))} {a : Nat} {b : Bool} {o : List Item} {l : List Req} (h : summary x = some (a, b, o, l)) :
    ∃ c, x = .got c ∧ c.st.world = a ∧ c.st.auth.auth = b ∧ c.st.out = o ∧ c.st.log = l := by
  cases x with
  | got c => simp only [summary, Option.some.injEq, Prod.mk.injEq] at h; exact ⟨c, rfl, h.1, h.2.1, h.2.2.1, h.2.2.2⟩
  | more => simp [summary] at h
  | err => simp [summary] at h
  | ub => simp [summary] at h

/-- `set k 0 0 1 noreply` with the data `a`, on a new connection: `STORED` is written. -/
theorem noreply_stored : ∃ c, serve (server []) 0 [[115, 101, 116, 32, 107, 32, 48, 32, 48, 32, 49, 32, 110, 111, 114, 101, 112, 108, 121, 13, 10] ++ [97, 13, 10]] = .got c ∧
    c.st.world = 1 ∧ c.st.out = [.cmd (.raw [83, 84, 79, 82, 69, 68, 13, 10])] := by
  obtain ⟨c, h, h1, _, h2, _⟩ := summary_got (x := serve (server []) 0 [[115, 101, 116, 32, 107, 32, 48, 32, 48, 32, 49, 32, 110, 111, 114, 101, 112, 108, 121, 13, 10] ++ [97, 13, 10]])
    (a := 1) (b := false) (o := [.cmd (.raw [83, 84, 79, 82, 69, 68, 13, 10])]) (l := [.mc (.cmd [[115, 101, 116], [107], [97]] true)])
    (by decide +kernel)
  exact ⟨c, h, h1, h2⟩

/-- Hypotheses of `no_access_without_password`: `SET k a` and `auth no` in three chunks; both are refused. -/
example : ∃ c, serve (server [112, 119]) 0 [[83, 69, 84, 32, 107, 32, 97, 13, 10], [97, 117], [116, 104, 32, 110, 111, 13, 10]] = .got c ∧
    (∀ r ∈ c.st.log, ¬ Presents [112, 119] r) ∧ c.st.log.length = 2 ∧ c.st.out = [.cmd (.err .noAuth), .cmd (.err .wrongPass)] := by
  obtain ⟨c, h, _, _, h2, h3⟩ := summary_got (x := serve (server [112, 119]) 0 [[83, 69, 84, 32, 107, 32, 97, 13, 10], [97, 117], [116, 104, 32, 110, 111, 13, 10]])
    (a := 0) (b := false) (o := [.cmd (.err .noAuth), .cmd (.err .wrongPass)]) (l := [.resp [[83, 69, 84], [107], [97]], .resp [authWord, [110, 111]]])
    (by decide +kernel)
  refine ⟨c, h, ?_, by rw [h3]; rfl, h2⟩
  rw [h3]
  intro r hr
  simp only [List.mem_cons, List.not_mem_nil, or_false] at hr
  rcases hr with rfl | rfl
  · rintro ⟨a, _, ha⟩; simp at ha
  · rintro ⟨a, _, ha⟩; simp at ha

/-- With the password the command is executed: RESP. -/
example : summary (serve (server [112, 119]) 0 [[65, 85, 84, 72, 32, 112, 119, 13, 10, 115, 101, 116, 32, 107, 32, 97, 13, 10]]) =
    some (1, true, [.cmd (.str [79, 75]), .cmd (.str [79, 75])], [.resp [[65, 85, 84, 72], [112, 119]], .resp [[115, 101, 116], [107], [97]]]) := by
  decide +kernel

/-- Postgres: a query before the password closes the connection; -/
example : summary (serve (server [112, 119]) 0 [[0, 0, 0, 17, 0, 3, 0, 0, 117, 115, 101, 114, 0, 98, 111, 0, 0], [81, 0, 0, 0, 12, 115, 101, 116, 32, 107, 32, 97, 0]]) =
    some (0, false, [.pg .askPassword], [.pg (.magic 196608 [117, 115, 101, 114, 0, 98, 111, 0, 0]), .pg (.typed 81 [115, 101, 116, 32, 107, 32, 97, 0])]) := by
  decide +kernel

/-- after the password it is executed. -/
example : (summary (serve (server [112, 119]) 0 [[0, 0, 0, 17, 0, 3, 0, 0, 117, 115, 101, 114, 0, 98, 111, 0, 0], [112, 0, 0, 0, 7, 112, 119, 0] ++ [81, 0, 0, 0, 12, 115, 101, 116, 32, 107, 32, 97, 0]])).map
    (fun x => (x.1, x.2.1)) = some (1, true) := by
  decide +kernel

/-- Hypotheses of `noreply_same_effect_partial` and `noreply_is_answered`. -/
example : Mc.Example.req.Ok 7 (-1) 99 := Mc.Example.ok

end Example

end Verif.Conn
