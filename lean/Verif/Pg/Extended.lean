import Mathlib.Tactic.Common
import Verif.Pg.ReplyProps

/-!
C79: a prepared statement gets one answer and one "ready".  C80: a failed step makes the server skip the rest.
Examples for C78, C79.
-/

namespace Verif.Pg

open Verif.Num Verif.Resp Verif.Cache Verif.Cmd
open Function (update)

/-! ### Prepared statements -/

/-- How a client reads the answer to Parse, Bind, Execute and Sync. -/
def getPrepared (s : Bytes) : Option (Answer × Bytes) :=
  (getMsg s).bind fun x => if x.1 = 49 ∧ x.2.1 = [] then
    (getMsg x.2.2).bind fun y => if y.1 = 50 ∧ y.2.1 = [] then getAnswer y.2.2 else none
  else none

theorem getPrepared_body {a : Answer} {b : Bytes} (h : Body a b) (rest : Bytes) :
    getPrepared ([49, 0, 0, 0, 4] ++ ([50, 0, 0, 0, 4] ++ (b ++ [90, 0, 0, 0, 5, 73] ++ rest))) = some (a, rest) := by
  rw [getPrepared, show getMsg ([49, 0, 0, 0, 4] ++ ([50, 0, 0, 0, 4] ++ (b ++ [90, 0, 0, 0, 5, 73] ++ rest))) = _ from
    getMsg_written 49 (n := 4) (p := []) rfl (by decide) _]
  simp only [Option.bind_some, true_and, if_true]
  rw [show getMsg ([50, 0, 0, 0, 4] ++ (b ++ [90, 0, 0, 0, 5, 73] ++ rest)) = _ from getMsg_written 50 (n := 4) (p := []) rfl (by decide) _]
  simp only [Option.bind_some, true_and, if_true]
  exact getAnswer_body h rest

theorem respond_parse {pw : Bytes} {pg : State} (h1 : pg.error = false) (h2 : pg.emptyQuery = false) (h3 : pg.parse = true) :
    respond pw pg = ([.parsed], { pg with parse := false }, false, true) := by
  rw [respond, if_neg (by simp [h1]), if_neg (by simp [h2]), if_pos h3]

theorem respond_bind {pw : Bytes} {pg : State} (h1 : pg.error = false) (h2 : pg.emptyQuery = false) (h3 : pg.parse = false) (h4 : pg.bind = true) :
    respond pw pg = ([.bound], { pg with bind := false }, false, true) := by
  rw [respond, if_neg (by simp [h1]), if_neg (by simp [h2]), if_neg (by simp [h3]), if_pos h4]

theorem respond_sync {pw : Bytes} {pg : State} (h1 : pg.error = false) (h2 : pg.emptyQuery = false) (h3 : pg.parse = false) (h4 : pg.bind = false)
    (h5 : pg.describe = false) (h6 : pg.sync = true) : respond pw pg = ([.ready], { pg with execute := false, sync := false }, false, true) := by
  rw [respond, if_neg (by simp [h1]), if_neg (by simp [h2]), if_neg (by simp [h3]), if_neg (by simp [h4]), if_neg (by simp [h5]), if_pos h6]

theorem handle_sync (hash : Nat → Nat) (pw : Bytes) (pg : State) : handle hash pw pg (.typed 83 []) = .ok [] { pg with error := false, sync := true } := rfl

theorem words_cons {ps : List Bytes} {q : Query} (h : q ≠ []) : ∃ a as, words ps q = a :: as := by
  have : ∀ (q : Query) (w : Bytes), wordsFrom ps w q ≠ [] := by
    intro q
    induction q with
    | nil => simp [wordsFrom]
    | cons x q ih =>
      obtain ⟨g, p⟩ := x
      intro w
      cases g
      · simp [wordsFrom]
      · exact ih _
  cases q with
  | nil => exact absurd rfl h
  | cons x q =>
    obtain ⟨g, p⟩ := x
    cases hw : words ps ((g, p) :: q) with
    | nil => exact absurd hw (this q _)
    | cons a as => exact ⟨a, as, rfl⟩

section
variable {env : Spec.Env} {I : Spec.State → Spec.State → Prop} {oom : Bool} {hash : Nat → Nat} {c : Conf} {e : Env} {pw : Bytes} {y : Sys} {x x' : Client}
  {s s' : Spec.State} {out : List Bytes} {n : Nat}

/-- A turn that needs no command. -/
theorem turn_none {data d : Bytes} {m : Msg} {k : Nat} {pg pg' : State} {rs : List Reply} {outs : List (List Bytes)} (h1 : frame data = .got (m, k))
    (h2 : handle hash pw x.pg m = .ok [] pg) (h3 : respond pw pg = (rs, pg', false, true)) (h : Session env I hash pw y x s data outs x' s' d) (hne : outs ≠ []) :
    ∃ c outs', 0 ∉ Conf.lastError c ∧ outs = rs.flatMap (sendReply c pg') :: outs' ∧ (∀ b ∈ rs.flatMap (sendReply c pg'), b.length ≤ 2147483648) ∧
      Session env I hash pw y ⟨pg', x.st, true⟩ s (data.drop k) outs' x' s' d := by
  cases h with
  | done => exact absurd rfl hne
  | turn hc hp he hlive hr hf ht =>
    rw [serve_none h1 h2 h3] at hr
    obtain ⟨g1, rfl⟩ := runs_ret hr
    simp only [Prod.mk.injEq] at g1
    obtain ⟨rfl, rfl, rfl⟩ := g1
    exact ⟨_, _, he, rfl, hf, ht⟩

/-- A turn that runs a command. -/
theorem turn_some {data d : Bytes} {m : Msg} {k : Nat} {pg : State} {a : Bytes} {as : List Bytes} {outs : List (List Bytes)} (h1 : frame data = .got (m, k))
    (h2 : handle hash pw x.pg m = .ok (a :: as) pg) (hr : pg.ready = true) (h : Session env I hash pw y x s data outs x' s' d) (hne : outs ≠ []) :
    ∃ out outs' x1 s1, outs = out :: outs' ∧ Session env I hash pw y x1 s1 (data.drop k) outs' x' s' d ∧
      ((x1.live = true ∧ (∃ b, x1.pg = { pg with bytea := b }) ∧ ∃ a b, Body a b ∧ out.flatten = b ++ (sendReady x1.pg).flatten) ∨
        (x1.live = false ∧ ∃ args, args <:+ a :: as ∧ (Spells (args.headD []) [113, 117, 105, 116] ∨ IsPopulate args ∨ IsWildScan y args))) := by
  cases h with
  | done => exact absurd rfl hne
  | turn hc hp he hlive hr' hf ht =>
    rw [serve_some h1 h2 hr] at hr'
    obtain ⟨rfl, g⟩ := perform_answer hc hp hr' hf
    exact ⟨_, _, _, _, rfl, ht, g⟩

theorem session_dead {data d : Bytes} {outs : List (List Bytes)} (h : Session env I hash pw y x s data outs x' s' d) (hx : x.live = false) : x'.live = false := by
  cases h with
  | done => exact hx
  | turn _ _ _ hl => rw [hx] at hl; cases hl

/-- **C79** (`_partial`: if all steps succeed and the server does not crash and QUIT is not executed).  A client sends Parse, Bind, Execute and Sync, for any query and values as in C41, on an idle
connection: it reads "parsed", "bound", exactly one answer, and exactly one "ready"; the server has read exactly the four messages, and the connection is idle again. -/
theorem prepared_answered_partial (hi : Idle x.pg) (name portal : Bytes) (hn : Name name) (hpo : Name portal) {q : Query}
    (hv : Valid q) (hq : q ≠ []) (hfirst : ∀ x, q.head? = some x → x.1 = false) (hp : EachOnce q)
    (types : List Nat) (ht : types.length < 65536)
    (fs : List Nat) (hfs : ∀ f ∈ fs, f = 0 ∨ f = 1) (hfl : fs.length < 32768)
    (ps : List Bytes) (hps : ∀ p ∈ ps, p.length < 2147483648) (hl : ps.length = (paramsOf q).length) (hpl : ps.length < 65536)
    (rs : List Nat) (hr : rs.length < 65536) (limit : Nat)
    (hl1 : (parseMsg name (text q) types).length + 4 < 2147483648) (hl2 : (bindMsg portal name fs ps rs).length + 4 < 2147483648) {rest d : Bytes} {outs : List (List Bytes)}
    (h : Session env I hash pw y x s (message 80 (parseMsg name (text q) types) ++ (message 66 (bindMsg portal name fs ps rs) ++
      (message 69 (executeMsg portal limit) ++ (message 83 [] ++ rest)))) outs x' s' d) (hlen : outs.length = 4) (hlive : x'.live = true) :
    d = rest ∧ Idle x'.pg ∧ ∃ a, ∀ rest', getPrepared ((outs.map List.flatten).flatten ++ rest') = some (a, rest') := by
  have ne : ∀ {l : List (List Bytes)} {n : Nat}, l.length = n + 1 → l ≠ [] := by rintro l n h rfl; cases h
  obtain ⟨c1, outs1, he1, rfl, hf1, g1⟩ := turn_none (frame_message 80 _ _ (by decide) hl1) (parse_done hash pw x.pg name hn hv hfirst hp types ht)
    (respond_parse rfl hi.emptyQuery rfl) h (ne hlen)
  replace hlen : outs1.length = 3 := by simpa using hlen
  rw [List.drop_left] at g1
  obtain ⟨pg1, hpg1⟩ : ∃ pg1, pg1 = { x.pg with error := false, parse := false, statements := (name, ⟨(paramsOf q).length, toks q⟩) :: x.pg.statements } := ⟨_, rfl⟩
  replace g1 : Session env I hash pw y ⟨pg1, x.st, true⟩ s _ outs1 x' s' d := hpg1 ▸ g1
  have i1 : Idle pg1 := by rw [hpg1]; exact ⟨hi.1, hi.2, rfl, hi.4, hi.5, hi.6, hi.7, hi.8, hi.9, hi.10⟩
  obtain ⟨c2, outs2, he2, rfl, hf2, g2⟩ := turn_none (x := ⟨pg1, x.st, true⟩) (frame_message 66 _ _ (by decide) hl2) (bind_done hash pw pg1 portal name hpo hn fs hfs hfl ps hps hpl rs hr)
    (respond_bind (pg := { pg1 with error := false, bind := true, portals := (portal, ⟨name, ps⟩) :: pg1.portals }) rfl i1.emptyQuery i1.parse rfl) g1 (ne hlen)
  replace hlen : outs2.length = 2 := by simpa using hlen
  rw [List.drop_left] at g2
  obtain ⟨pg2, hpg2⟩ : ∃ pg2, pg2 = { pg1 with error := false, bind := false, portals := (portal, ⟨name, ps⟩) :: pg1.portals } := ⟨_, rfl⟩
  replace g2 : Session env I hash pw y ⟨pg2, x.st, true⟩ s _ outs2 x' s' d := hpg2 ▸ g2
  have i2 : Idle pg2 := by rw [hpg2]; exact ⟨i1.1, i1.2, i1.3, rfl, i1.5, i1.6, i1.7, i1.8, i1.9, i1.10⟩
  obtain ⟨a0, as0, hw⟩ := words_cons (ps := ps) hq
  have hex := execute_done hash pw pg2 portal name hpo hn hv hfirst ps hl hp (by rw [hpg2]; simp) (by rw [hpg2, hpg1]; simp) limit
  rw [hw] at hex
  have hl3 : (executeMsg portal limit).length + 4 < 2147483648 := by
    have := hpo.1
    simp only [executeMsg, be32, List.length_append, List.length_cons, List.length_nil]; omega
  obtain ⟨out3, outs3, x3, s3, rfl, g3, hx⟩ := turn_some (x := ⟨pg2, x.st, true⟩) (frame_message 69 _ _ (by decide) hl3) hex i2.ready g2 (ne hlen)
  replace hlen : outs3.length = 1 := by simpa using hlen
  rw [List.drop_left] at g3
  rcases hx with ⟨k1, ⟨b, k2⟩, a, bs, k3, k4⟩ | ⟨k1, _⟩
  · have i3 : x3.pg.emptyQuery = false ∧ x3.pg.parse = false ∧ x3.pg.bind = false ∧ x3.pg.describe = false ∧ x3.pg.execute = true := by
      rw [k2]; exact ⟨i2.2, i2.3, i2.4, i2.6, rfl⟩
    obtain ⟨c4, outs4, he4, rfl, hf4, g4⟩ := turn_none (frame_message 83 [] _ (by decide) (by decide)) (handle_sync hash pw x3.pg)
      (respond_sync rfl i3.1 i3.2.1 i3.2.2.1 i3.2.2.2.1 rfl) g3 (ne hlen)
    replace hlen : outs4 = [] := by simpa using hlen
    subst hlen
    rw [List.drop_left] at g4
    cases g4 with
    | done =>
      refine ⟨rfl, ⟨by rw [k2]; exact i2.1, i3.1, i3.2.1, i3.2.2.1, rfl, i3.2.2.2.1, rfl, by rw [k2]; exact i2.8, by rw [k2]; exact i2.9, by rw [k2]; exact i2.10⟩, a, fun rest' => ?_⟩
      have := getPrepared_body k3 rest'
      simp only [List.map_cons, List.map_nil, List.flatten_cons, List.flatten_nil, k4]
      simpa [sendReply, sendReady, i3.2.2.2.2] using this
  · rw [session_dead g3 k1] at hlive
    cases hlive

/-- A Parse whose text is refused. -/
theorem parse_fails (hash : Nat → Nat) (pw : Bytes) (pg : State) {name q : Bytes} (hn : Name name) (h0 : 0 ∉ q) (hq : parseQuery hash q = some none) :
    handle hash pw pg (.typed 80 (parseMsg name q [])) = .ok [] { pg with error := true } := by
  have : parseMsg name q [] = name ++ 0 :: (q ++ 0 :: (be16 0 ++ [])) := by simp [parseMsg]
  show parseP hash _ _ = _
  rw [this, parseP, cstr_exact _ _ hn.2]
  simp only []
  rw [cstr_exact _ _ h0]
  simp only []
  rw [int16_be16 (by decide)]
  simp only []
  rw [if_neg (by simp), if_neg (by have := hn.1; omega), hq]

/-- **C80** (`_partial`: what holds of it is that the failed message itself does nothing; the messages behind it are not skipped, see `failed_parse_runs_old`).  A Parse whose
text is refused is answered by an error, changes nothing in the cache, and leaves all prepared statements and portals as they were. -/
theorem failed_parse_harmless_partial (hi : Idle x.pg) {name q : Bytes} (hn : Name name) (h0 : 0 ∉ q) (hq : parseQuery hash q = some none)
    (hl1 : (parseMsg name q []).length + 4 < 2147483648) {rest d : Bytes} {outs : List (List Bytes)}
    (h : Session env I hash pw y x s (message 80 (parseMsg name q []) ++ rest) outs x' s' d) (hlen : outs.length = 1) :
    d = rest ∧ s' = s ∧ Idle x'.pg ∧ x'.pg.statements = x.pg.statements ∧ x'.pg.portals = x.pg.portals ∧ x'.st = x.st ∧
      ∃ t, ∀ rest', getAnswer ((outs.map List.flatten).flatten ++ rest') = some (failedWith t, rest') := by
  obtain ⟨c1, outs1, he1, rfl, hf1, g1⟩ := turn_none (frame_message 80 _ _ (by decide) hl1) (parse_fails hash pw x.pg hn h0 hq) (respond_error rfl) h (by rintro rfl; cases hlen)
  replace hlen : outs1 = [] := by simpa using hlen
  subst hlen
  rw [List.drop_left] at g1
  cases g1 with
  | done =>
    refine ⟨rfl, rfl, hi.error true, rfl, rfl, rfl, said c1.lastError, fun rest' => ?_⟩
    have := getAnswer_body (body_err he1 (hf1 _ (by simp [sendReply, writeErr, said]))) rest'
    simpa [sendReply, sendReady, writeErr, said, hi.execute] using this

/-- **C79, negation.**  Whenever Parse fails, for whatever text of the query, the client that sends Parse and Sync gets an error and *two* "ready": what it takes for the answer
to its next query begins with the second one. -/
theorem failed_parse_two_ready (hi : Idle x.pg) {name q : Bytes} (hn : Name name) (h0 : 0 ∉ q) (hq : parseQuery hash q = some none)
    (hl1 : (parseMsg name q []).length + 4 < 2147483648) {rest d : Bytes} {outs : List (List Bytes)}
    (h : Session env I hash pw y x s (message 80 (parseMsg name q []) ++ (message 83 [] ++ rest)) outs x' s' d) (hlen : outs.length = 2) :
    d = rest ∧ ∃ t, ∀ rest', getAnswer ((outs.map List.flatten).flatten ++ rest') = some (failedWith t, [90, 0, 0, 0, 5, 73] ++ rest') := by
  have ne : ∀ {l : List (List Bytes)} {n : Nat}, l.length = n + 1 → l ≠ [] := by rintro l n h rfl; cases h
  have hh := parse_fails hash pw x.pg hn h0 hq
  obtain ⟨c1, outs1, he1, rfl, hf1, g1⟩ := turn_none (frame_message 80 _ _ (by decide) hl1) hh (respond_error rfl) h (ne hlen)
  replace hlen : outs1.length = 1 := by simpa using hlen
  rw [List.drop_left] at g1
  obtain ⟨c4, outs4, he4, rfl, hf4, g4⟩ := turn_none (x := ⟨{ x.pg with error := true }, x.st, true⟩) (frame_message 83 [] _ (by decide) (by decide)) (handle_sync hash pw { x.pg with error := true })
    (respond_sync rfl hi.emptyQuery hi.parse hi.bind hi.describe rfl) g1 (ne hlen)
  replace hlen : outs4 = [] := by simpa using hlen
  subst hlen
  rw [List.drop_left] at g4
  cases g4 with
  | done =>
    refine ⟨rfl, said c1.lastError, fun rest' => ?_⟩
    have := getAnswer_body (body_err he1 (hf1 _ (by simp [sendReply, writeErr, said]))) ([90, 0, 0, 0, 5, 73] ++ rest')
    simpa [sendReply, sendReady, writeErr, said, hi.execute] using this

end

/-! ### A failed step -/

/-- A connection on which `set k a` was prepared as the unnamed statement. -/
def client1 : Client := ⟨{ State.new with ready := true, statements := [([], ⟨0, toks [(false, .word [115, 101, 116]), (false, .word [107]), (false, .word [97])]⟩)] }, ⟨false⟩, true⟩

theorem client1_idle : Idle client1.pg := ⟨rfl, rfl, rfl, rfl, rfl, rfl, rfl, rfl, rfl, rfl⟩

/-- The text of errors of the parser is "bad". -/
def conf1 : Conf := ⟨[49, 46, 51], false, [98, 97, 100]⟩

theorem serve_runs {env : Spec.Env} {I : Spec.State → Spec.State → Prop} {oom : Bool} {hash : Nat → Nat} {c : Conf} {e : Env} {pw : Bytes} {x : Client}
    {s s' : Spec.State} {other : Fn → Env → List Bytes → Prog (List W)} {data : Bytes} {m : Msg} {n : Nat} {pg : State} (ha : Allowed pw x.st) {name low : Bytes} {as : List Bytes} {fn : Fn}
    (h1 : frame data = .got (m, n)) (h2 : handle hash pw x.pg m = .ok (name :: as) pg) (hr : pg.ready = true) (hs : Spells name low) (hm : (low, fn) ∈ cmds)
    (hn : low.map lower = low ∧ low ∉ ([[98, 101, 103, 105, 110], [114, 111, 108, 108, 98, 97, 99, 107], [99, 111, 109, 109, 105, 116]] : List Bytes) ∧ 58 ∉ low)
    {p : Prog (List W)} (hcall : call e pw other fn (name :: as) x.st = Prog.map (·, x.st) p) {o : List W} (h : Runs env I oom e.now p s o s')
    (hcalm : W.close ∉ o ∧ W.undefined ∉ o ∧ W.failed ∉ o) :
    Runs env I oom e.now (serve hash c e pw other x data) s (o.flatMap (send pg), n, ⟨pg, x.st, true⟩) s' := by
  rw [serve_some h1 h2 hr, perform, precommand_command hn.1 hs hn.2.1 hn.2.2]
  simp only []
  rw [evcommand_allowed ha hs hm, hcall]
  have := runs_map_of (f := fun r : List W × ConnSt =>
    (r.1.flatMap (send pg), n, (⟨pg, r.2, decide (W.close ∉ r.1 ∧ W.undefined ∉ r.1 ∧ W.failed ∉ r.1)⟩ : Client))) (runs_map_of (f := fun o => (o, x.st)) h)
  simp only [decide_eq_true hcalm] at this
  exact this

theorem clocks5 : Clocks (at_ .postgres 5) := by simp only [Clocks, at_, IsI64]; decide

theorem session_none {env : Spec.Env} {I : Spec.State → Spec.State → Prop} {hash : Nat → Nat} {pw : Bytes} {y : Sys} {pg0 : State} {st : ConnSt} {x' : Client} {s s' : Spec.State}
    {t : UInt8} {m rest d : Bytes} {pg pg' : State} {rs : List Reply} {outs : List (List Bytes)} (h0 : t ≠ 0) (hm : m.length + 4 < 2147483648)
    (h2 : handle hash pw pg0 (.typed t m) = .ok [] pg) (h3 : respond pw pg = (rs, pg', false, true)) (hf : ∀ b ∈ rs.flatMap (sendReply conf1 pg'), b.length ≤ 2147483648)
    (h : Session env I hash pw y ⟨pg', st, true⟩ s rest outs x' s' d) :
    Session env I hash pw y ⟨pg0, st, true⟩ s (message t m ++ rest) (rs.flatMap (sendReply conf1 pg') :: outs) x' s' d := by
  refine .turn (oom := false) (c := conf1) (e := at_ .postgres 5) (n := (message t m).length) (s1 := s) (x1 := ⟨pg', st, true⟩) clocks5 rfl (by decide) rfl ?_ hf (by rw [List.drop_left]; exact h)
  rw [serve_none (x := ⟨pg0, st, true⟩) (frame_message t m rest h0 hm) h2 h3]
  exact .ret _ _

theorem session_some {env : Spec.Env} {I : Spec.State → Spec.State → Prop} {hash : Nat → Nat} {pw : Bytes} {y : Sys} {pg0 : State} {st : ConnSt} {x' : Client} {s s1 s' : Spec.State}
    {t : UInt8} {m rest d : Bytes} {pg : State} {outs : List (List Bytes)} (h0 : t ≠ 0) (hm : m.length + 4 < 2147483648) (ha : Allowed pw st) {name low : Bytes} {as : List Bytes} {fn : Fn}
    (h2 : handle hash pw pg0 (.typed t m) = .ok (name :: as) pg) (hr : pg.ready = true) (hs : Spells name low) (hc : (low, fn) ∈ cmds)
    (hn : low.map lower = low ∧ low ∉ ([[98, 101, 103, 105, 110], [114, 111, 108, 108, 98, 97, 99, 107], [99, 111, 109, 109, 105, 116]] : List Bytes) ∧ 58 ∉ low)
    {p : Prog (List W)} (hcall : call (at_ .postgres 5) pw (admin y) fn (name :: as) st = Prog.map (·, st) p) {o : List W} (hrun : Runs env I false 5 p s o s1)
    (hcalm : W.close ∉ o ∧ W.undefined ∉ o ∧ W.failed ∉ o) (hf : ∀ b ∈ o.flatMap (send pg), b.length ≤ 2147483648)
    (h : Session env I hash pw y ⟨pg, st, true⟩ s1 rest outs x' s' d) :
    Session env I hash pw y ⟨pg0, st, true⟩ s (message t m ++ rest) (o.flatMap (send pg) :: outs) x' s' d := by
  refine .turn (oom := false) (c := conf1) (e := at_ .postgres 5) (n := (message t m).length) (x1 := ⟨pg, st, true⟩) clocks5 rfl (by decide) rfl ?_ hf (by rw [List.drop_left]; exact h)
  exact serve_runs (x := ⟨pg0, st, true⟩) ha (frame_message t m rest h0 hm) h2 hr hs hc hn hcall hrun hcalm

/-- `set k a`. -/
def setKA : Query := [(false, .word [115, 101, 116]), (false, .word [107]), (false, .word [97])]

theorem setKA_valid : Valid setKA := by simp [setKA, Valid, Piece.Ok]

theorem setKA_once : EachOnce setKA := by intro i h1 h2; simp [setKA, paramsOf] at h2; omega

theorem name_nil : Name [] := ⟨by decide, by simp⟩

/-- SET of `k` to `a` in an empty cache. -/
theorem set_runs : Runs ⟨true, false, fun _ => 0⟩ alone false 5 (cmdSET (at_ .postgres 5) [setName, [107], [97]]) ⟨fun _ => none, fun _ => 0⟩ (pgEnd [83, 69, 84, 32, 49])
    ⟨update (fun _ => none) [107] (some ⟨[97], 0, 0, 1⟩), update (fun _ => 0) 0 1⟩ := by
  refine .call (s1 := ⟨fun _ => none, fun _ => 0⟩) (s2 := ⟨update (fun _ => none) [107] (some ⟨[97], 0, 0, 1⟩), update (fun _ => 0) 0 1⟩) (r := ⟨.inserted, []⟩) rfl ?_ (.ret _ _)
  simp [Spec.Step, Spec.Dict.get, Spec.normExp]
  exact Or.inl rfl

theorem handle_open_quote (hash : Nat → Nat) (pw : Bytes) (pg : State) :
    handle hash pw pg (.typed 80 (parseMsg [] [103, 101, 116, 32, 39, 107] [])) = .ok [] { pg with error := true } :=
  parse_fails hash pw pg name_nil (by decide) rfl

/-- The last three of the four messages, in whatever state the first left: the unnamed statement `set k a` is executed. -/
theorem runs_unnamed (hash : Nat → Nat) {pg : State} (hi : Idle pg) (hst : pg.statements.lookup [] = some ⟨0, toks setKA⟩) (rest : Bytes) : ∃ outs x',
    Session ⟨true, false, fun _ => 0⟩ alone hash [] sys1 ⟨pg, ⟨false⟩, true⟩ ⟨fun _ => none, fun _ => 0⟩
      (message 66 (bindMsg [] [] [] [] []) ++ (message 69 (executeMsg [] 0) ++ (message 83 [] ++ rest))) outs x'
      ⟨update (fun _ => none) [107] (some ⟨[97], 0, 0, 1⟩), update (fun _ => 0) 0 1⟩ rest ∧ outs.length = 3 ∧ x'.live = true := by
  have hb := bind_done hash [] pg [] [] name_nil name_nil [] (by simp) (by decide) [] (by simp) (by decide) [] (by decide)
  obtain ⟨pg2, hpg2⟩ : ∃ pg2, pg2 = { pg with error := false, bind := false, portals := ([], ⟨[], []⟩) :: pg.portals } := ⟨_, rfl⟩
  have hrb : respond [] { pg with error := false, bind := true, portals := ([], ⟨[], []⟩) :: pg.portals } = ([.bound], pg2, false, true) := by
    rw [hpg2]; exact respond_bind rfl hi.emptyQuery hi.parse rfl
  have hi2 : Idle pg2 := by rw [hpg2]; exact ⟨hi.1, hi.2, hi.3, rfl, hi.5, hi.6, hi.7, hi.8, hi.9, hi.10⟩
  have hex := execute_done hash [] pg2 [] [] name_nil name_nil setKA_valid (by simp [setKA]) [] rfl setKA_once (by rw [hpg2]; rfl) (by rw [hpg2]; exact hst) 0
  obtain ⟨pg3, hpg3⟩ : ∃ pg3, pg3 = { pg2 with error := false, execute := true } := ⟨_, rfl⟩
  have hrs : respond [] { pg3 with error := false, sync := true } = ([.ready], { pg3 with error := false, execute := false, sync := false }, false, true) :=
    respond_sync (pg := { pg3 with error := false, sync := true }) rfl (by rw [hpg3]; exact hi2.2) (by rw [hpg3]; exact hi2.3) (by rw [hpg3]; exact hi2.4) (by rw [hpg3]; exact hi2.6) rfl
  rw [← hpg3] at hex
  refine ⟨_, _, session_none (by decide) (by decide) hb hrb ?_ (session_some (by decide) (by decide) (Or.inl rfl) hex (by rw [hpg3]; exact hi2.1) (low := setName) (fn := .cmdSET)
    spells_self (by decide) (by decide) rfl set_runs (by decide) ?_ (session_none (by decide) (by decide) (handle_sync hash [] pg3) hrs ?_ (.done _ _ _))), rfl, rfl⟩
  · simp [sendReply]
  · have : sendReady pg3 = [] := by rw [hpg3]; rfl
    simp [pgEnd, send, this, sendComplete, writeI32]
  · simp [sendReply, sendReady]

/-- **C80, negation.**  `set k a` was prepared as the unnamed statement, and the key was deleted.  A client now sends, in one go, Parse of `get 'k` (which fails, because of the open quote),
Bind, Execute and Sync: the old statement is executed again, and `k` holds `a`. -/
theorem failed_parse_runs_old (hash : Nat → Nat) : Idle client1.pg ∧ parseQuery hash [103, 101, 116, 32, 39, 107] = some none ∧ ∃ outs x' s',
    Session ⟨true, false, fun _ => 0⟩ alone hash [] sys1 client1 ⟨fun _ => none, fun _ => 0⟩ (message 80 (parseMsg [] [103, 101, 116, 32, 39, 107] []) ++
      (message 66 (bindMsg [] [] [] [] []) ++ (message 69 (executeMsg [] 0) ++ (message 83 [] ++ [])))) outs x' s' [] ∧ s'.dict [107] = some ⟨[97], 0, 0, 1⟩ := by
  obtain ⟨outs, x', h, _, _⟩ := runs_unnamed hash (client1_idle.error true) rfl []
  exact ⟨client1_idle, rfl, _, _, _, session_none (by decide) (by decide) (handle_open_quote hash [] client1.pg) (respond_error rfl) (by decide) h, by simp⟩

/-- Hypotheses of `prepared_answered_partial`: `set k a` is prepared, bound and executed. -/
example (hash : Nat → Nat) : Idle client1.pg ∧ Name [] ∧ Valid setKA ∧ setKA ≠ [] ∧ (∀ x, setKA.head? = some x → x.1 = false) ∧ EachOnce setKA ∧
    (parseMsg [] (text setKA) []).length + 4 < 2147483648 ∧ (bindMsg [] [] [] [] []).length + 4 < 2147483648 ∧ ∃ s s' outs x',
      Session ⟨true, false, fun _ => 0⟩ alone hash [] sys1 client1 s (message 80 (parseMsg [] (text setKA) []) ++
        (message 66 (bindMsg [] [] [] [] []) ++ (message 69 (executeMsg [] 0) ++ (message 83 [] ++ [7])))) outs x' s' [7] ∧ outs.length = 4 ∧ x'.live = true := by
  refine ⟨client1_idle, name_nil, setKA_valid, by simp [setKA], by simp [setKA], setKA_once, by decide, by decide, ⟨fun _ => none, fun _ => 0⟩,
    ⟨update (fun _ => none) [107] (some ⟨[97], 0, 0, 1⟩), update (fun _ => 0) 0 1⟩, ?_⟩
  have hp := parse_done hash [] client1.pg [] name_nil setKA_valid (by simp [setKA]) setKA_once [] (by decide)
  have hi : Idle { client1.pg with error := false, parse := false, statements := ([], ⟨(paramsOf setKA).length, toks setKA⟩) :: client1.pg.statements } :=
    ⟨rfl, rfl, rfl, rfl, rfl, rfl, rfl, rfl, rfl, rfl⟩
  obtain ⟨outs, x', h, h1, h2⟩ := runs_unnamed hash hi rfl [7]
  exact ⟨_, _, session_none (by decide) (by decide) hp (respond_parse rfl rfl rfl) (by decide) h, by simp [h1], h2⟩

/-- Hypotheses of `failed_parse_two_ready` and `failed_parse_harmless_partial`. -/
example (hash : Nat → Nat) : Idle client1.pg ∧ parseQuery hash [103, 101, 116, 32, 39, 107] = some none ∧ ∃ outs x' s,
    Session ⟨true, false, fun _ => 0⟩ alone hash [] sys1 client1 s (message 80 (parseMsg [] [103, 101, 116, 32, 39, 107] []) ++ (message 83 [] ++ [7])) outs x' s [7] ∧ outs.length = 2 := by
  refine ⟨client1_idle, rfl, _, _, ⟨fun _ => none, fun _ => 0⟩, session_none (by decide) (by decide) (handle_open_quote hash [] client1.pg) (respond_error rfl) (by decide)
    (session_none (by decide) (by decide) (handle_sync hash [] { client1.pg with error := true }) (respond_sync rfl rfl rfl rfl rfl rfl) (by decide) (.done _ _ _)), rfl⟩

/-- `GET 'k'`. -/
def getK : Query := [(false, .word [71, 69, 84]), (false, .quoted [107])]

/-- Hypotheses of `query_answered_partial`, `queries_answered_partial` and `pg_get_exact`: `GET 'k'` twice, where `k` holds `x`. -/
example (hash : Nat → Nat) : Idle client1.pg ∧ Allowed [] client1.st ∧ Writes getK [[71, 69, 84], [107]] ∧ Spells [71, 69, 84] getName ∧ (text getK).length + 5 < 2147483648 ∧
    ∃ outs x', Session ⟨true, false, fun _ => 0⟩ busy hash [] sys1 client1 st1 (message 81 (queryMsg (text getK)) ++ (message 81 (queryMsg (text getK)) ++ [7])) outs x' st1 [7] ∧
      outs.length = 2 ∧ x'.live = true := by
  have hw : Writes getK [[71, 69, 84], [107]] := ⟨by simp [getK, Valid, Piece.Ok], by simp [getK], by simp [getK], rfl⟩
  refine ⟨client1_idle, Or.inl rfl, hw, (spells_iff _ _ (by decide)).2 (by decide), by decide, ?_⟩
  have hrun : Runs ⟨true, false, fun _ => 0⟩ busy false 5 (cmdGET (at_ .postgres 5) [[71, 69, 84], [107]]) st1 (pgRow valueCol [120] [71, 69, 84, 32, 49]) st1 := by
    refine .call (s1 := st1) (r := ⟨.found, [([107], ⟨[120], 0, 0, 1⟩)]⟩) (s2 := st1) trivial ?_ (.ret _ _)
    unfold Spec.Step
    simp only []
    rw [show st1.dict.get 5 [107] = some ⟨[120], 0, 0, 1⟩ from rfl]
    exact ⟨rfl, trivial⟩
  have hq : ∀ pg, handle hash [] pg (.typed 81 (queryMsg (text getK))) = .ok [[71, 69, 84], [107]] { pg with error := false } := fun pg =>
    query_exact_partial hash [] pg hw.valid (by simp [getK]) hw.apart hw.noParam
  refine ⟨_, _, session_some (by decide) (by decide) (Or.inl rfl) (hq client1.pg) rfl (low := getName) (fn := .cmdGET) ((spells_iff _ _ (by decide)).2 (by decide)) (by decide) (by decide) rfl hrun
    (by decide) (by decide) (session_some (by decide) (by decide) (Or.inl rfl) (hq { client1.pg with error := false }) rfl (low := getName) (fn := .cmdGET) ((spells_iff _ _ (by decide)).2 (by decide)) (by decide)
    (by decide) rfl hrun (by decide) (by decide) (.done _ _ _)), rfl, rfl⟩

/-- Hypotheses of `pg_set_exact`: `set k a` in an empty cache. -/
example (hash : Nat → Nat) : Idle client1.pg ∧ Allowed [] client1.st ∧ Writes setKA [setName, [107], [97]] ∧ (text setKA).length + 5 < 2147483648 ∧
    ∃ out n x' s', Runs ⟨true, false, fun _ => 0⟩ alone false 5 (serve hash conf1 (at_ .postgres 5) [] (admin sys1) client1 (message 81 (queryMsg (text setKA)) ++ [7]))
      ⟨fun _ => none, fun _ => 0⟩ (out, n, x') s' ∧ ∀ b ∈ out, b.length ≤ 2147483648 := by
  have hw : Writes setKA [setName, [107], [97]] := ⟨setKA_valid, by simp [setKA], by simp [setKA], rfl⟩
  have hq := query_exact_partial hash [] client1.pg hw.valid (by simp [setKA]) hw.apart hw.noParam
  have hx := serve_runs (hash := hash) (c := conf1) (e := at_ .postgres 5) (other := admin sys1) (low := setName) (fn := .cmdSET) (Or.inl rfl) (frame_query [7] (by decide)) hq rfl spells_self (by decide)
    (by decide) rfl set_runs (by decide)
  exact ⟨client1_idle, Or.inl rfl, hw, by decide, _, _, _, _, hx, by decide⟩

/-- `del "k"`. -/
def delK : Query := [(false, .word [100, 101, 108]), (false, .quoted [107])]

/-- Hypotheses of `pg_del_exact`: `k` is there. -/
example (hash : Nat → Nat) : Idle client1.pg ∧ Allowed [] client1.st ∧ Writes delK [delName, [107]] ∧ (text delK).length + 5 < 2147483648 ∧
    ∃ out n x' s', Runs ⟨true, false, fun _ => 0⟩ busy false 5 (serve hash conf1 (at_ .postgres 5) [] (admin sys1) client1 (message 81 (queryMsg (text delK)) ++ [7]))
      st1 (out, n, x') s' ∧ ∀ b ∈ out, b.length ≤ 2147483648 := by
  have hw : Writes delK [delName, [107]] := ⟨by simp [delK, Valid, Piece.Ok], by simp [delK], by simp [delK], rfl⟩
  have hq := query_exact_partial hash [] client1.pg hw.valid (by simp [delK]) hw.apart hw.noParam
  have hrun : Runs ⟨true, false, fun _ => 0⟩ busy false 5 (cmdDEL (at_ .postgres 5) [delName, [107]]) st1 (pgEnd [68, 69, 76, 32, 49]) ⟨update st1.dict [107] none, st1.tok⟩ := by
    refine .call (s1 := st1) (r := ⟨.deleted, []⟩) (s2 := ⟨update st1.dict [107] none, st1.tok⟩) trivial ?_ (.ret _ _)
    simp [Spec.Step, show st1.dict.get 5 [107] = some ⟨[120], 0, 0, 1⟩ from rfl]
  have hx := serve_runs (hash := hash) (c := conf1) (e := at_ .postgres 5) (other := admin sys1) (low := delName) (fn := .cmdDEL) (Or.inl rfl) (frame_query [7] (by decide)) hq rfl spells_self (by decide)
    (by decide) rfl hrun (by decide)
  exact ⟨client1_idle, Or.inl rfl, hw, by decide, _, _, _, _, hx, by decide⟩

end Verif.Pg
