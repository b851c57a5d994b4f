import Mathlib.Tactic.Common
import Verif.Cmd.Service
import Verif.Cmd.Multi
import Verif.Mc.Reply
import Verif.Pg.ReplyProps

/-!
C97: what is stored over one protocol is read over every other.
-/

namespace Verif.Cross

open Verif.Num Verif.Resp Verif.Cmd Verif.Cache
open Function (update)

/-! ### Model: one request on a connection of each protocol -/

/-- One turn of the loop of `evdata`, `/repo/src/conn.c:113-175`, for a RESP connection: what is written.  Data that is no complete command is left out here (see `Verif.Resp.feed`). -/
def serveResp (e : Env) (pw : Bytes) (other : Fn → Env → List Bytes → Prog (List W)) (data : Bytes) : Prog Bytes :=
  match parseCommandResp data with
  | .got (as, _) => (evcommand e pw other as ⟨true⟩).map fun r => renderAll r.1 []
  | _ => .ret []

/-- The same for a memcache connection. -/
def serveMc (e : Env) (pw : Bytes) (other : Fn → Env → List Bytes → Prog (List W)) (data : Bytes) : Prog Bytes :=
  match Mc.parseMc data with
  | .got (q, _) => Mc.answer e pw other ⟨true⟩ q
  | _ => .ret []

/-- The server: how the cache is configured, the password, the commands beside those of the cache, the help page, the hash and the settings of Postgres. -/
structure Srv where
  env : Spec.Env
  pw : Bytes
  other : Fn → Env → List Bytes → Prog (List W)
  help : Bool → Bytes
  hash : Nat → Nat
  conf : Pg.Conf

/-- When a request is served: the clock of the cache, Unix time, and whether memory is low. -/
structure At where
  now : Int
  unix : Int
  lowmem : Bool

def At.Ok (m : At) : Prop := IsI64 m.now ∧ 0 < m.now ∧ IsI64 m.unix ∧ 0 ≤ m.unix

/-- As the commands see it. -/
def At.env (m : At) (p : Proto) : Env := ⟨m.now, m.unix, m.lowmem, p⟩

/-! ### Specification: clients -/

/-- A RESP client reads the reply. -/
def Hears (bytes : Bytes) (r : Reply) : Prop := ∃ n, ∀ f, n ≤ f → decode f bytes = some (r, [])

/-- The options of SET ask for these seconds to live and flags, and not for the old value or its lifetime. -/
structure Asked (now : Int) (life : Option Int) (fl : Nat) (os : List Opt) : Prop where
  deadline : deadlineOf os = life.map fun n => fromNow now n 1000000000
  flags : flagsOf os = fl
  noGet : Opt.get ∉ os
  noKeep : Opt.keepttl ∉ os

/-- A client of some protocol asks to store the value under the key, with flags and seconds to live, and is told that this is done. -/
inductive Puts (S : Srv) (I : Spec.State → Spec.State → Prop) (m : At) (k v : Bytes) (fl : Nat) (life : Option Int) : Spec.State → Spec.State → Prop
  /-- RESP: SET key value options; OK -/
  | resp {oom name os wss w rest bytes s s'} : Spells name setName → List.Forall₂ (Written m.now) os wss → Asked m.now life fl os →
      Enc (name :: k :: v :: wss.flatten) w → Runs S.env I oom m.now (serveResp (m.env .resp) S.pw S.other (w ++ rest)) s bytes s' →
      Hears bytes (.simple [79, 75]) → Puts S I m k v fl life s s'
  /-- memcache: set, add, replace or cas; STORED -/
  | mc {oom : Bool} {r : Mc.Store} {x : Int} {c : Nat} {rest bytes : Bytes} {s s'} : r.Ok fl x c → Stores r.verb → r.key = k → r.data = v →
      (life = none ∧ x = 0 ∨ life = some x ∧ 0 < x ∧ x ≤ 2592000) →
      Runs S.env I oom m.now (serveMc (m.env .memcache) S.pw S.other (r.wire ++ rest)) s bytes s' →
      bytes = [83, 84, 79, 82, 69, 68, 13, 10] → Puts S I m k v fl life s s'
  /-- HTTP: PUT /key?parameters; 200 -/
  | http {oom : Bool} {r : Http.Request} {extra bytes text : Bytes} {token flags : Option Nat} {s s'} : r.Ok → r.method = .put → r.Allowed S.pw →
      r.key = k → r.body = v → r.Asks token life flags → flags.getD 0 = fl →
      Runs S.env I oom m.now (Http.serve S.help (m.env .http) S.pw S.other (r.wire ++ extra)) s bytes s' →
      Http.readResponse bytes = some (200, text) → Puts S I m k v fl life s s'
  /-- Postgres: SET key value options; the tag is SET 1 -/
  | pg {oom : Bool} {x x' : Pg.Client} {q : Pg.Query} {name : Bytes} {os : List Opt} {wss : List (List Bytes)} {rest : Bytes} {out : List Bytes} {n : Nat} {s s'} :
      Pg.Idle x.pg → Pg.Allowed S.pw x.st → Spells name setName → List.Forall₂ (Written m.now) os wss → Asked m.now life fl os →
      Pg.Writes q (name :: k :: v :: wss.flatten) → (Pg.text q).length + 5 < 2147483648 →
      Runs S.env I oom m.now (Pg.serve S.hash S.conf (m.env .postgres) S.pw S.other x (Pg.message 81 (Pg.queryMsg (Pg.text q)) ++ rest)) s (out, n, x') s' →
      (∀ b ∈ out, b.length ≤ 2147483648) →
      Pg.getAnswer out.flatten = some (.done [83, 69, 84, 32, 49], []) → Puts S I m k v fl life s s'

/-- What a client is shown of a key: the value, and on memcache the flags. -/
structure Seen where
  value : Bytes
  flags : Option Nat

/-- get or gets -/
def mcWord (gets : Bool) : Bytes := if gets = true then [103, 101, 116, 115] else [103, 101, 116]

/-- A client of some protocol asks for the key and reads this answer; `none`: there is no such key. -/
inductive Reads (S : Srv) (I : Spec.State → Spec.State → Prop) (m : At) (k : Bytes) : Option Seen → Spec.State → Spec.State → Prop
  /-- RESP: GET key; null -/
  | respMiss {oom name w rest bytes s s'} : Spells name getName → Enc [name, k] w →
      Runs S.env I oom m.now (serveResp (m.env .resp) S.pw S.other (w ++ rest)) s bytes s' → Hears bytes .null → Reads S I m k none s s'
  | respHit {oom name w rest bytes v s s'} : Spells name getName → Enc [name, k] w →
      Runs S.env I oom m.now (serveResp (m.env .resp) S.pw S.other (w ++ rest)) s bytes s' → Hears bytes (.bulk v) → Reads S I m k (some ⟨v, none⟩) s s'
  /-- memcache: get key, gets key; END -/
  | mcMiss {oom gets rest bytes n s s'} : Mc.Key k → Runs S.env I oom m.now (serveMc (m.env .memcache) S.pw S.other (Mc.joined [mcWord gets, k] ++ [13, 10] ++ rest)) s bytes s' →
      (∀ f, n ≤ f → clientGet gets f bytes = some []) → Reads S I m k none s s'
  | mcHit {oom gets rest bytes n fl token v s s'} : Mc.Key k → Runs S.env I oom m.now (serveMc (m.env .memcache) S.pw S.other (Mc.joined [mcWord gets, k] ++ [13, 10] ++ rest)) s bytes s' →
      (∀ f, n ≤ f → clientGet gets f bytes = some [⟨k, fl, token, v⟩]) → Reads S I m k (some ⟨v, some fl⟩) s s'
  /-- HTTP: GET /key; 404 -/
  | httpMiss {oom : Bool} {r : Http.Request} {extra bytes text : Bytes} {s s'} : r.Ok → r.method = .get → r.Allowed S.pw → r.key = k →
      Runs S.env I oom m.now (Http.serve S.help (m.env .http) S.pw S.other (r.wire ++ extra)) s bytes s' →
      Http.readResponse bytes = some (404, text) → Reads S I m k none s s'
  | httpHit {oom : Bool} {r : Http.Request} {extra bytes v : Bytes} {s s'} : r.Ok → r.method = .get → r.Allowed S.pw → r.key = k →
      Runs S.env I oom m.now (Http.serve S.help (m.env .http) S.pw S.other (r.wire ++ extra)) s bytes s' →
      Http.readResponse bytes = some (200, v) → Reads S I m k (some ⟨v, none⟩) s s'
  /-- Postgres: GET key; a table with no row, or with one -/
  | pgMiss {oom : Bool} {x x' : Pg.Client} {q : Pg.Query} {name rest tag : Bytes} {out : List Bytes} {n : Nat} {cols : List (Bytes × Nat)} {s s'} :
      Pg.Idle x.pg → Pg.Allowed S.pw x.st → Spells name getName → Pg.Writes q [name, k] → (Pg.text q).length + 5 < 2147483648 →
      Runs S.env I oom m.now (Pg.serve S.hash S.conf (m.env .postgres) S.pw S.other x (Pg.message 81 (Pg.queryMsg (Pg.text q)) ++ rest)) s (out, n, x') s' →
      (∀ b ∈ out, b.length ≤ 2147483648) → Pg.getAnswer out.flatten = some (.table cols [] tag, []) → Reads S I m k none s s'
  | pgHit {oom : Bool} {x x' : Pg.Client} {q : Pg.Query} {name rest tag v : Bytes} {out : List Bytes} {n : Nat} {cols : List (Bytes × Nat)} {s s'} :
      Pg.Idle x.pg → Pg.Allowed S.pw x.st → Spells name getName → Pg.Writes q [name, k] → (Pg.text q).length + 5 < 2147483648 →
      Runs S.env I oom m.now (Pg.serve S.hash S.conf (m.env .postgres) S.pw S.other x (Pg.message 81 (Pg.queryMsg (Pg.text q)) ++ rest)) s (out, n, x') s' →
      (∀ b ∈ out, b.length ≤ 2147483648) → Pg.getAnswer out.flatten = some (.table cols [[v]] tag, []) → Reads S I m k (some ⟨v, none⟩) s s'

/-- A client of some protocol asks to remove the key. -/
inductive Removes (S : Srv) (I : Spec.State → Spec.State → Prop) (m : At) (k : Bytes) : Spec.State → Spec.State → Prop
  | resp {oom name w rest bytes s s'} : Spells name delName → Enc [name, k] w →
      Runs S.env I oom m.now (serveResp (m.env .resp) S.pw S.other (w ++ rest)) s bytes s' → Removes S I m k s s'
  /-- memcache: delete key [noreply] -/
  | mc {oom : Bool} {quiet : Bool} {rest bytes : Bytes} {s s'} : Mc.Key k → (quiet = false → k ≠ Mc.noreplyWord) →
      Runs S.env I oom m.now (serveMc (m.env .memcache) S.pw S.other
        (Mc.joined ([[100, 101, 108, 101, 116, 101], k] ++ if quiet then [Mc.noreplyWord] else []) ++ [13, 10] ++ rest)) s bytes s' → Removes S I m k s s'
  | http {oom : Bool} {r : Http.Request} {extra bytes : Bytes} {s s'} : r.Ok → r.method = .delete → r.Allowed S.pw → r.key = k →
      Runs S.env I oom m.now (Http.serve S.help (m.env .http) S.pw S.other (r.wire ++ extra)) s bytes s' → Removes S I m k s s'
  | pg {oom : Bool} {x x' : Pg.Client} {q : Pg.Query} {name rest : Bytes} {out : List Bytes} {n : Nat} {s s'} :
      Pg.Idle x.pg → Pg.Allowed S.pw x.st → Spells name delName → Pg.Writes q [name, k] → (Pg.text q).length + 5 < 2147483648 →
      Runs S.env I oom m.now (Pg.serve S.hash S.conf (m.env .postgres) S.pw S.other x (Pg.message 81 (Pg.queryMsg (Pg.text q)) ++ rest)) s (out, n, x') s' →
      (∀ b ∈ out, b.length ≤ 2147483648) → Removes S I m k s s'

/-- Others leave alone what can be seen of the key at the time. -/
def Leaves (now : Int) (k : Bytes) (s s' : Spec.State) : Prop := s'.dict.get now k = s.dict.get now k

/-- The seconds to live have not passed. -/
def Lasts (stored life now : Int) : Prop := now < stored + life * 1000000000 ∧ now < 2 ^ 63 - 1

end Verif.Cross
