import Mathlib.Tactic.Common
import Verif.Cross.Model

/-!
C97: what is stored over one protocol is read over every other.
-/

namespace Verif.Cross

open Verif.Num Verif.Resp Verif.Cmd Verif.Cache
open Function (update)

variable {S : Srv} {I : Spec.State → Spec.State → Prop} {m : At} {oom : Bool} {k v : Bytes} {fl : Nat} {life : Option Int} {s s' : Spec.State}

/-! ### Requests reach the commands -/

theorem Hears.unique {bytes : Bytes} {r r' : Reply} (h : Hears bytes r) (h' : Hears bytes r') : r = r' := by
  obtain ⟨n, h⟩ := h
  obtain ⟨n', h'⟩ := h'
  have h1 := h (max n n') (by omega)
  have h2 := h' (max n n') (by omega)
  rw [h1] at h2
  simpa using h2

theorem Hears.of_answers {out : List W} {r : Reply} (h : Answers out r) : Hears (renderAll out []) r := by
  obtain ⟨bytes, fuel, h1, h2⟩ := h
  refine ⟨fuel, fun f hf => ?_⟩
  rw [h1 [], List.nil_append]
  simpa using h2 [] f hf

theorem resp_runs {e : Env} {pw : Bytes} {other : Fn → Env → List Bytes → Prog (List W)} {as : List Bytes} {w rest bytes : Bytes} (hw : Enc as w)
    (h : Runs S.env I oom e.now (serveResp e pw other (w ++ rest)) s bytes s') :
    ∃ out, Executes S.env I oom e pw other as s out s' ∧ bytes = renderAll out [] := by
  unfold serveResp at h
  rw [(enc_framed hw).2.1 rest] at h
  obtain ⟨⟨out, st'⟩, h1, rfl⟩ := runs_map h
  exact ⟨out, ⟨st', h1⟩, rfl⟩

theorem mc_runs {e : Env} {pw : Bytes} {other : Fn → Env → List Bytes → Prog (List W)} {as : List Bytes} {nr : Bool} {w rest bytes : Bytes}
    (hw : Framed Mc.parseMc (.cmd as nr) w) (h : Runs S.env I oom e.now (serveMc e pw other (w ++ rest)) s bytes s') :
    ∃ out, Executes S.env I oom e pw other as s out s' ∧ bytes = (out.map Mc.respond).flatten := by
  unfold serveMc at h
  rw [hw.2.1 rest] at h
  obtain ⟨⟨out, st'⟩, h1, rfl⟩ := runs_map h
  exact ⟨out, ⟨st', h1⟩, rfl⟩

theorem rawBytes_flatten {out : List W} {bytes : Bytes} (h : rawBytes out = some bytes) : (out.map Mc.respond).flatten = bytes := by
  induction out generalizing bytes with
  | nil => simp [rawBytes] at h; simp [h]
  | cons x out ih =>
    cases x <;> simp [rawBytes] at h
    obtain ⟨b, h1, rfl⟩ := h
    simp [Mc.respond, render, ih h1]

theorem client_all {gets : Bool} {n : Nat} {bytes : Bytes} {fs : List Found} (h : clientGet gets n bytes = some fs) : ∀ f, n ≤ f → clientGet gets f bytes = some fs := by
  intro f hf
  induction f, hf using Nat.le_induction with
  | base => exact h
  | succ f _ ih => exact client_more ih

/-! ### Storing -/

theorem stored_holds {lowmem : Bool} {it : Spec.Item} (h : Stored lowmem k it s s') : s'.dict k = some it := by
  rcases h with h | h
  · exact h.1
  · exact h.2.1

theorem newDeadline_asked {now : Int} {os : List Opt} (h : Asked now life fl os) (old : Option Spec.Item) :
    newDeadline os old = (life.map fun n => fromNow now n 1000000000).getD 0 := by
  unfold newDeadline
  rw [← h.deadline]
  cases old with
  | none => rfl
  | some it => simp [h.noKeep]

/-- SET with options over Postgres: the tag SET 1 only if the value is stored. -/
theorem pg_set_opts {e : Env} {hash : Nat → Nat} {c : Pg.Conf} {pw : Bytes} {other : Fn → Env → List Bytes → Prog (List W)} {x x' : Pg.Client} {q : Pg.Query} {name : Bytes} {os : List Opt} {wss : List (List Bytes)}
    {rest : Bytes} {out : List Bytes} {n : Nat} (hp : e.proto = .postgres) (hnow : IsI64 e.now) (h0 : 0 < e.now) (hi : Pg.Idle x.pg) (ha : Pg.Allowed pw x.st)
    (hs : Spells name setName) (hos : List.Forall₂ (Written e.now) os wss) (hask : Asked e.now life fl os)
    (hw : Pg.Writes q (name :: k :: v :: wss.flatten)) (hlen : (Pg.text q).length + 5 < 2147483648)
    (h : Runs S.env I oom e.now (Pg.serve hash c e pw other x (Pg.message 81 (Pg.queryMsg (Pg.text q)) ++ rest)) s (out, n, x') s')
    (hf : ∀ b ∈ out, b.length ≤ 2147483648) (hans : Pg.getAnswer out.flatten = some (.done [83, 69, 84, 32, 49], [])) :
    ∃ c', s'.dict k = some ⟨v, (life.map fun n => fromNow e.now n 1000000000).getD 0, fl, c'⟩ := by
  obtain ⟨o, hx, rfl⟩ := Pg.query_runs hi ha hw hlen hs (by decide : (setName, Fn.cmdSET) ∈ cmds) (by decide) rfl h
  have hpm : e.proto ≠ .memcache := by rw [hp]; decide
  have hd := deadlines_pos h0 hos
  rw [cmdSET_opts (hos.imp fun _ _ h => written_reads hpm hnow h0 h) (flags_ok hos) hd] at hx
  have herr : ∀ msg : ErrMsg, o = [.err msg] → False := by
    rintro msg rfl
    have hall : ([W.err msg].flatMap (Pg.send { x.pg with error := false })) = [Pg.sendError (Pg.said msg.text), [90, 0, 0, 0, 5, 73]] := by
      simp [Pg.send, Pg.writeErr, Pg.said, Pg.sendReady, hi.execute]
    rw [hall] at hf hans
    have := Pg.getAnswer_body (Pg.body_err (Pg.nul_text msg) (hf _ (by simp))) []
    rw [List.append_nil] at this
    simp only [List.flatten_cons, List.flatten_nil, List.append_nil] at hans
    rw [this] at hans
    simp [Pg.failedWith] at hans
  split at hx
  · exact (herr .syntaxError (runs_ret hx).1).elim
  split at hx
  · exact (herr .syntaxError (runs_ret hx).1).elim
  unfold execSET at hx
  obtain ⟨s1, rr, s2, h1, h2, h3⟩ := runs_call hx
  obtain ⟨rfl, rfl⟩ := runs_ret h3
  have hget : (collect os).get = false := by simp [collect, hask.noGet]
  rcases set_step hd (fun it hit => visible_nonneg h0 hit) h2 with ⟨a1, rfl, a3⟩ | ⟨a1, rfl, a3⟩ | ⟨a1, a2, a3, c', a4⟩
  · exact (herr .outOfMemory (by simp [setReply])).elim
  · have hall : setReply e [83, 69, 84] (collect os).get ⟨if s1.dict.get e.now k = none then .notfound else .found, []⟩ = pgEnd [83, 69, 84, 32, 48] := by
      rw [setReply, if_neg (by split <;> simp), hget, if_neg (by simp)]
      simp only [hp]
      rw [if_neg (by split <;> simp)]
      rfl
    rw [hall] at hf hans
    have := Pg.read_tag (hi.error false) (by decide) hf []
    rw [List.append_nil] at this
    rw [this] at hans
    simp at hans
  · refine ⟨c', ?_⟩
    have := stored_holds a4
    rw [newDeadline_asked hask, hask.flags] at this
    exact this

/-- Whatever the protocol: if the client is told so, the key holds the value, with these flags and this deadline. -/
theorem Puts.holds (hm : m.Ok) (h : Puts S I m k v fl life s s') :
    ∃ c, s'.dict k = some ⟨v, (life.map fun n => fromNow m.now n 1000000000).getD 0, fl, c⟩ := by
  obtain ⟨hnow, h0, hunix, hu0⟩ := hm
  cases h with
  | @resp oom name os wss w rest bytes _ _ hs hos hask hw hr hh =>
    obtain ⟨out, hx, rfl⟩ := resp_runs (e := m.env .resp) hw hr
    have hnull : Answers [.null] .null := answers_val .null (by unfold Val.Ok; trivial) (fun _ => rfl)
    have herr : ∀ msg : ErrMsg, (∀ b ∈ msg.text, 32 ≤ b) → Answers [.err msg] (.error msg.text) := fun msg hb => answers_val (.error msg.text) hb (fun _ => rfl)
    obtain ⟨g1, g2⟩ := set_exact_partial (e := m.env .resp) hs rfl hnow h0 hos hx
    by_cases hc : Contradictory os
    · obtain ⟨rfl, rfl⟩ := g1 hc
      have := hh.unique (.of_answers (herr .syntaxError (by decide)))
      simp at this
    · obtain ⟨s1, _, ⟨_, rfl, _⟩ | ⟨_, rfl, _⟩ | ⟨_, _, c, g⟩⟩ := g2 hc
      · have := hh.unique (.of_answers (herr .outOfMemory (by decide)))
        simp at this
      · have := hh.unique (.of_answers hnull)
        simp at this
      · have := stored_holds g
        rw [newDeadline_asked hask, hask.flags] at this
        exact ⟨c, this⟩
  | @mc oom r x c rest bytes _ _ hok hv hk hd hl hr hb =>
    subst hk hd
    obtain ⟨out, hx, rfl⟩ := mc_runs (e := m.env .memcache) (Mc.store_framed hok) hr
    obtain ⟨s1, _, ⟨_, rfl, _⟩ | ⟨_, ⟨t, rfl, g⟩, _⟩ | ⟨_, _, c', g⟩⟩ := mc_store_stores_partial (e := m.env .memcache) hok hv rfl hnow h0 hunix hu0 hx
    · exact absurd hb (by decide)
    · have : t = storedLine := by simpa [Mc.respond, render, storedLine] using hb
      exact absurd (this ▸ List.prefix_rfl) g
    · have := stored_holds g
      refine ⟨c', ?_⟩
      rw [this]
      rcases hl with ⟨rfl, rfl⟩ | ⟨rfl, h1, h2⟩
      · rfl
      · have : mcDeadline (m.env .memcache).now (m.env .memcache).unix x = some (fromNow m.now x 1000000000) := by
          unfold mcDeadline
          rw [if_neg (by omega), if_neg (by omega), if_pos (by omega)]
          rfl
        rw [this]; rfl
  | @http oom r extra bytes text token flags _ _ hok hm ha hk hb hask hfl hr hread =>
    subst hk hb hfl
    obtain ⟨g1, g2⟩ := Http.http_put_exact (e := m.env .http) rfl hnow h0 hok hm ha extra hask hr
    by_cases hc : r.has [110, 120] = true ∧ r.has [120, 120] = true
    · obtain ⟨⟨b, g⟩, _⟩ := g1 hc
      rw [g] at hread; simp at hread
    · obtain ⟨s1, _, ⟨_, ⟨b, g⟩, _⟩ | ⟨_, ⟨b, g⟩, _⟩ | ⟨_, _, c, g⟩⟩ := g2 hc
      · rw [g] at hread; simp at hread
      · rw [g] at hread; simp at hread
      · exact ⟨c, stored_holds g⟩
  | pg hi ha hs hos hask hw hlen hr hf hans =>
    exact pg_set_opts (e := m.env .postgres) rfl hnow h0 hi ha hs hos hask hw hlen hr hf hans

/-! ### Reading -/

/-- What the client is shown is the item. -/
def Shows : Option Spec.Item → Option Seen → Prop
  | none, none => True
  | some it, some x => x.value = it.value ∧ ∀ f, x.flags = some f → f = it.flags
  | _, _ => False

theorem Reads.shows {a : Option Seen} (h : Reads S I m k a s s') (hlen : I s s' → ∀ it, s'.dict.get m.now k = some it → it.value.length < 2 ^ 64) :
    I s s' ∧ Shows (s'.dict.get m.now k) a := by
  have resp : ∀ {oom name w rest bytes}, Spells name getName → Enc [name, k] w →
      Runs S.env I oom m.now (serveResp (m.env .resp) S.pw S.other (w ++ rest)) s bytes s' →
      I s s' ∧ Hears bytes (match s'.dict.get m.now k with | none => .null | some it => .bulk it.value) := by
    intro oom name w rest bytes hs hw hr
    obtain ⟨out, hx, rfl⟩ := resp_runs (e := m.env .resp) hw hr
    obtain ⟨g1, rfl⟩ := (get_single (e := m.env .resp) rfl hs).1 hx
    refine ⟨g1, .of_answers ?_⟩
    unfold valueOrNull
    cases hg : s'.dict.get m.now k with
    | none => rw [show s'.dict.get (m.env .resp).now k = none from hg]; exact answers_val .null (by unfold Val.Ok; trivial) (fun _ => rfl)
    | some it => rw [show s'.dict.get (m.env .resp).now k = some it from hg]; exact answers_val (.bulk it.value) (hlen g1 it hg) (fun _ => rfl)
  have mc : ∀ {oom gets rest bytes}, Mc.Key k → Runs S.env I oom m.now (serveMc (m.env .memcache) S.pw S.other (Mc.joined [mcWord gets, k] ++ [13, 10] ++ rest)) s bytes s' →
      I s s' ∧ ∀ f, 2 ≤ f → clientGet gets f bytes = some (match s'.dict.get m.now k with
        | none => []
        | some it => [⟨k, it.flags, if gets then some it.cas else none, it.value⟩]) := by
    intro oom gets rest bytes hk hr
    have hline : Mc.Line [mcWord gets, k] [mcGetName gets, k] false := by
      cases gets
      · exact .get (by simp) (by simpa using hk)
      · exact .gets (by simp) (by simpa using hk)
    have hfr : Framed Mc.parseMc (.cmd [mcGetName gets, k] false) (Mc.joined [mcWord gets, k] ++ [13, 10]) := by
      refine Mc.request_framed (Or.inr (Or.inl ⟨_, _, _, hline, rfl, rfl⟩)) ?_
      cases gets <;> simp [mcWord, Mc.joined]
    obtain ⟨out, hx, rfl⟩ := mc_runs (e := m.env .memcache) hfr hr
    obtain ⟨its, g1, bytes, g2, g3⟩ := mc_get_exact (e := m.env .memcache) (ks := [k]) rfl (by simpa using hk) (by simp) hx
    rw [rawBytes_flatten g2]
    cases g1 with
    | cons g4 g5 =>
      cases g5
      obtain ⟨g4, rfl⟩ := g4
      refine ⟨g4, client_all (n := 2) ?_⟩
      rw [show (2 : Nat) = [k].length + 1 from rfl, g3]
      simp only [show (m.env .memcache).now = m.now from rfl]
      cases s'.dict.get m.now k <;> simp
  cases h with
  | respMiss hs hw hr hh =>
    obtain ⟨g1, g2⟩ := resp hs hw hr
    refine ⟨g1, ?_⟩
    have := hh.unique g2
    cases hg : s'.dict.get m.now k <;> rw [hg] at this <;> simp at this
    trivial
  | respHit hs hw hr hh =>
    obtain ⟨g1, g2⟩ := resp hs hw hr
    refine ⟨g1, ?_⟩
    have := hh.unique g2
    cases hg : s'.dict.get m.now k <;> rw [hg] at this <;> simp at this
    simp [Shows, this]
  | @mcMiss oom gets rest bytes n _ _ hk hr hh =>
    obtain ⟨g1, g2⟩ := mc hk hr
    refine ⟨g1, ?_⟩
    have := hh (n + 2) (by omega)
    rw [g2 (n + 2) (by omega)] at this
    cases hg : s'.dict.get m.now k <;> rw [hg] at this <;> simp at this
    trivial
  | @mcHit oom gets rest bytes n fl token v _ _ hk hr hh =>
    obtain ⟨g1, g2⟩ := mc hk hr
    refine ⟨g1, ?_⟩
    have := hh (n + 2) (by omega)
    rw [g2 (n + 2) (by omega)] at this
    cases hg : s'.dict.get m.now k <;> rw [hg] at this <;> simp at this
    simp [Shows, this]
  | httpMiss hok hm ha hk hr hh =>
    subst hk
    obtain ⟨g1, g2⟩ := Http.http_get_exact (e := m.env .http) rfl hok hm ha _ hr
    refine ⟨g1, ?_⟩
    rw [hh] at g2
    simp only [show (m.env .http).now = m.now from rfl] at g2
    cases hg : s'.dict.get m.now _ <;> rw [hg] at g2 <;> simp at g2
    trivial
  | httpHit hok hm ha hk hr hh =>
    subst hk
    obtain ⟨g1, g2⟩ := Http.http_get_exact (e := m.env .http) rfl hok hm ha _ hr
    refine ⟨g1, ?_⟩
    rw [hh] at g2
    simp only [show (m.env .http).now = m.now from rfl] at g2
    cases hg : s'.dict.get m.now _ <;> rw [hg] at g2 <;> simp at g2
    simp [Shows, g2]
  | pgMiss hi ha hs hw hlen hr hf hans =>
    obtain ⟨g1, g2⟩ := Pg.pg_get_exact (e := m.env .postgres) rfl hi ha hw hs hlen hr hf []
    refine ⟨g1, ?_⟩
    rw [List.append_nil, hans] at g2
    simp only [show (m.env .postgres).now = m.now from rfl] at g2
    cases hg : s'.dict.get m.now _ <;> rw [hg] at g2 <;> simp at g2
    trivial
  | pgHit hi ha hs hw hlen hr hf hans =>
    obtain ⟨g1, g2⟩ := Pg.pg_get_exact (e := m.env .postgres) rfl hi ha hw hs hlen hr hf []
    refine ⟨g1, ?_⟩
    rw [List.append_nil, hans] at g2
    simp only [show (m.env .postgres).now = m.now from rfl] at g2
    cases hg : s'.dict.get m.now _ <;> rw [hg] at g2 <;> simp at g2
    simp [Shows, g2]

/-! ### Removing -/

theorem Removes.gone (h : Removes S I m k s s') : s'.dict.get m.now k = none := by
  have upd : ∀ d : Spec.Dict, Spec.Dict.get (update d k none) m.now k = none := fun d => by simp [Spec.Dict.get]
  cases h with
  | resp hs hw hr =>
    obtain ⟨out, hx, rfl⟩ := resp_runs (e := m.env .resp) hw hr
    obtain ⟨s1, _, ⟨g, rfl, _⟩ | ⟨_, rfl, _⟩⟩ := (del_single (e := m.env .resp) rfl hs).1 hx
    · exact g
    · exact upd _
  | @mc oom quiet rest bytes _ _ hk hq hr =>
    have hfr : Framed Mc.parseMc (.cmd [delName, k] quiet) (Mc.joined ([[100, 101, 108, 101, 116, 101], k] ++ if quiet then [Mc.noreplyWord] else []) ++ [13, 10]) := by
      cases quiet
      · refine Mc.request_framed (Or.inr (Or.inl ⟨_, _, _, Mc.Line.delete hk, rfl, rfl⟩)) ?_
        have := hq rfl
        simp [Mc.joined, this]
      · refine Mc.request_framed (Or.inr (Or.inl ⟨_, _, _, Mc.Line.deleteN hk, rfl, rfl⟩)) ?_
        intro hc
        have := congrArg List.length hc
        have := hk.1
        simp [Mc.joined, Mc.noreplyWord] at *
    obtain ⟨out, hx, rfl⟩ := mc_runs (e := m.env .memcache) hfr hr
    rw [executes_iff spells_self (by decide : (delName, Fn.cmdDEL) ∈ cmds) rfl] at hx
    unfold cmdDEL delLoop at hx
    obtain ⟨s1, rr, s2, h1, h2, h3⟩ := runs_call hx
    have : s' = s2 := by
      unfold delLoop at h3
      simp only [At.env] at h3
      exact (runs_ret h3).2
    subst this
    cases hg : s1.dict.get m.now k with
    | none =>
      simp [Spec.Step, At.env, hg] at h2
      rw [h2.2]; exact hg
    | some it =>
      simp [Spec.Step, At.env, hg] at h2
      rw [h2.2]; exact upd _
  | http hok hm ha hk hr =>
    subst hk
    obtain ⟨s1, _, ⟨g, e1, _⟩ | ⟨_, e1, _⟩⟩ := Http.http_delete_exact (e := m.env .http) rfl hok hm ha _ hr
    · rw [e1]; exact g
    · rw [e1]; exact upd _
  | pg hi ha hs hw hlen hr hf =>
    obtain ⟨s1, _, ⟨g, e1, _⟩ | ⟨_, e1, _⟩⟩ := Pg.pg_del_exact (e := m.env .postgres) rfl hi ha hw hs hlen hr hf []
    · rw [e1]; exact g
    · rw [e1]; exact upd _

/-! ### Across protocols -/

variable {m' : At} {a : Option Seen} {s1 s2 s3 : Spec.State}

/-- **C97**, values.  A value is stored over any of the four protocols (any value, flags and lifetime), and the client is told so, whatever others did before; then others do anything that
leaves the key alone, and a client of any of the four protocols asks for it: it is shown exactly the value, and on memcache exactly the flags, as long as the seconds to live have not passed; and
after that it is told that there is no such key. -/
theorem stored_here_read_there (hm : m.Ok) (hv : v.length < 2 ^ 64) (hlife : ∀ n, life = some n → 0 < n) (hp : Puts S I m k v fl life s s1) (hk : Leaves m'.now k s1 s2)
    (hr : Reads S (Leaves m'.now k) m' k a s2 s3) :
    ((∀ n, life = some n → Lasts m.now n m'.now) → ∃ x, a = some x ∧ x.value = v ∧ ∀ f, x.flags = some f → f = fl) ∧
    (∀ n, life = some n → ¬ Lasts m.now n m'.now → a = none) := by
  obtain ⟨c, h1⟩ := hp.holds hm
  set d : Int := (life.map fun n => fromNow m.now n 1000000000).getD 0 with hd
  have hs1 : s1.dict.get m'.now k = if d = 0 ∨ m'.now < d then some ⟨v, d, fl, c⟩ else none := by
    unfold Spec.Dict.get
    rw [h1]
    simp [Option.filter, Spec.Item.visible]
  obtain ⟨h2, h3⟩ := hr.shows (fun g it g2 => by
    rw [show s3.dict.get m'.now k = s1.dict.get m'.now k from Eq.trans g hk, hs1] at g2
    split at g2
    · simp at g2; rw [← g2]; exact hv
    · simp at g2)
  rw [show s3.dict.get m'.now k = s1.dict.get m'.now k from Eq.trans h2 hk, hs1] at h3
  obtain ⟨hnow, h0, _⟩ := hm
  unfold IsI64 at hnow
  constructor
  · intro hl
    have hvis : d = 0 ∨ m'.now < d := by
      cases life with
      | none => left; rfl
      | some n =>
        right
        have := hl n rfl
        simp only [Lasts] at this
        simp only [hd, Option.map_some, Option.getD_some, fromNow, lastTime]
        omega
    rw [if_pos hvis] at h3
    cases a with
    | none => exact h3.elim
    | some x => exact ⟨x, rfl, h3⟩
  · rintro n rfl hl
    have hn := hlife n rfl
    have hvis : ¬ (d = 0 ∨ m'.now < d) := by
      simp only [Lasts] at hl
      simp only [hd, Option.map_some, Option.getD_some, fromNow, lastTime]
      omega
    rw [if_neg hvis] at h3
    cases a with
    | none => rfl
    | some x => exact h3.elim

/-- **C97**, removal.  A client of any of the four protocols removes a key; then others do anything that leaves the key alone: clients of all four protocols are told that there is no such key. -/
theorem removed_here_gone_there (hle : m.now ≤ m'.now) (hp : Removes S I m k s s1) (hk : Leaves m'.now k s1 s2) (hr : Reads S (Leaves m'.now k) m' k a s2 s3) : a = none := by
  have h1 := hp.gone
  have h2 : s1.dict.get m'.now k = none := by
    unfold Spec.Dict.get at h1 ⊢
    cases hg : s1.dict k with
    | none => rfl
    | some it =>
      rw [hg] at h1
      simp [Option.filter, Spec.Item.visible] at h1 ⊢
      omega
  obtain ⟨h3, h4⟩ := hr.shows (fun g it g2 => by
    rw [show s3.dict.get m'.now k = s1.dict.get m'.now k from Eq.trans g hk, h2] at g2
    simp at g2)
  rw [show s3.dict.get m'.now k = s1.dict.get m'.now k from Eq.trans h3 hk, h2] at h4
  cases a with
  | none => rfl
  | some x => exact h4.elim

end Verif.Cross
