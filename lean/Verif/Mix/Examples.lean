import Mathlib.Tactic.Common
import Verif.Mix.Cas
import Verif.Many.Examples
import Verif.McWire.Examples
import Verif.Pg.Extended

/-!
C106, C107, C109, C110: concrete cases.
-/

namespace Verif.Mix.Example

open Verif.Num Verif.Resp Verif.Cmd Verif.Cache Verif.Shard Verif.Map Verif.Many Verif.Many.Example Function

/-- The state of a Postgres connection after its start. -/
def pg : Pg.State := { Pg.State.new with startup := true, ready := true }

theorem pg_idle : Pg.Idle pg := ⟨rfl, rfl, rfl, rfl, rfl, rfl, rfl, rfl, rfl, rfl⟩

/-- The first client speaks memcache, the third HTTP, the fourth the Postgres protocol, the others RESP. -/
def kind (t : Nat) : Mix.Kind := if t = 0 then .memcache else if t = 2 then .http else if t = 3 then .postgres id ⟨[49], false, []⟩ pg else .resp

/-- The clock of the first client is ahead of the others. -/
def clock (t _ : Nat) : Env := ⟨if t = 0 then 1000 else 900, 10 ^ 18, false, if t = 0 then .memcache else if t = 2 then .http else if t = 3 then .postgres else .resp⟩

theorem fine (t i : Nat) : Mix.Fine (kind t) (clock t i) := by
  by_cases h : t = 0
  · simp only [h, kind, clock, if_true, Mix.Fine]
    exact ⟨rfl, by decide, by unfold IsI64; decide, rfl, by unfold IsI64; decide, by decide⟩
  by_cases h' : t = 2
  · subst h'
    exact ⟨rfl, show (0 : Int) < 900 by decide, show IsI64 900 by unfold IsI64; decide, rfl⟩
  by_cases h3 : t = 3
  · subst h3
    exact ⟨rfl, show (0 : Int) < 900 by decide, show IsI64 900 by unfold IsI64; decide, rfl⟩
  · simp only [h, h', h3, kind, clock, if_false, Mix.Fine]
    exact ⟨rfl, by decide, by unfold IsI64; decide, rfl⟩

theorem late (t i : Nat) : 0 ≤ (clock t i).now := by
  unfold clock
  by_cases h : t = 0 <;> simp [h]

theorem addr_ok : (Mix.server ctx4 4 kind [] Wire.Example.sys clock addr).Ok := by
  refine ⟨?_, ?_, ?_⟩
  · intro t u h
    simp only [Mix.server, addr] at h
    split at h <;> split at h <;> omega
  · intro t h
    simp only [Mix.server, addr] at h
    split at h <;> omega
  · intro t h
    simp only [Mix.server, addr, Conc.single] at h
    split at h <;> omega

/-- `set k 5 0 2` with `41`. -/
def r1 : Mc.Store := ⟨.set, [107], [53], [48], [50], [48], false, [52, 49]⟩
/-- `cas k 7 0 1 2` with `x`. -/
def r2 : Mc.Store := ⟨.cas, [107], [55], [48], [49], [50], false, [120]⟩
/-- `gets k`. -/
def gets : Bytes := [103, 101, 116, 115, 32, 107, 13, 10]

/-- `cas=2&flags=9`. -/
def params : List Http.Param := [⟨[99, 97, 115], some [50]⟩, ⟨[102, 108, 97, 103, 115], some [57]⟩]

/-- PUT /k?cas=2&flags=9 with the body CR LF. -/
def put : Http.Request := Http.request .put params [13, 10]

/-- MGET 'k' z -/
def mgetQ : Pg.Query := [(false, .word [77, 71, 69, 84]), (false, .quoted [107]), (false, .word [122])]
/-- set z 'a b' -/
def setQ : Pg.Query := [(false, .word [115, 101, 116]), (false, .word [122]), (false, .quoted [97, 32, 98])]

/-- DecrBy k '-8' -/
def decrQ : Pg.Query := [(false, .word [68, 101, 99, 114, 66, 121]), (false, .word [107]), (false, .quoted [45, 56])]
/-- prepend k x -/
def prependQ : Pg.Query := [(false, .word [112, 114, 101, 112, 101, 110, 100]), (false, .word [107]), (false, .word [120])]
/-- incr k -/
def incrQ : Pg.Query := [(false, .word [105, 110, 99, 114]), (false, .word [107])]

/-- As message. -/
def sql (q : Pg.Query) : Bytes := Pg.message 81 (Pg.queryMsg (Pg.text q))

/-- Of the first four clients. -/
def four {α : Type} (a b c d : List α) (t : Nat) : List α := if t = 2 then c else if t = 3 then d else two a b t

/-- The memcache client does `set`, `gets` and `cas` with the token it was given, and `gets` again; the RESP client INCR; the HTTP client PUT with the same token; the
Postgres client SET, MGET, DECRBY, PREPEND and INCR. -/
def asks : Nat → List Mix.Ask :=
  four [.mc (.store .set [107] [52, 49] 5 0), .mc (.get true [[107]]), .mc (.store (.cas 2) [107] [120] 7 0), .mc (.get true [[107]])] [.resp (.add [107] 1)]
    [.http (.put (.cas 2) [107] [13, 10] 9 none)] [.pg (.set [122] [97, 32, 98]), .pg (.mget [[107], [122]]), .pg (.count true true [107] (-8)), .pg (.join true [107] [120]), .pg (.count false false [107] 1)]

/-- On the wire. -/
def wire : Nat → List Bytes := four [r1.wire, gets, r2.wire, gets] [incr] [put.wire] [sql setQ, sql mgetQ, sql decrQ, sql prependQ, sql incrQ]

/-- As it comes: the `cas` in two packets, and so the body of the PUT, and the MGET. -/
def chunks : Nat → List Bytes := four [r1.wire ++ gets ++ r2.wire.take 9, r2.wire.drop 9 ++ gets] [incr] [put.wire.take (put.wire.length - 1), put.wire.drop (put.wire.length - 1)]
  [sql setQ ++ (sql mgetQ).take 3, (sql mgetQ).drop 3, sql decrQ ++ sql prependQ ++ sql incrQ]

theorem put_ok : put.Ok := by
  refine Http.request_ok .put params ?_
  intro p hp
  simp only [params, List.mem_cons, List.not_mem_nil, or_false] at hp
  rcases hp with rfl | rfl
  · exact ⟨by simp, by decide, by intro v hv; simp at hv; subst hv; decide⟩
  · exact ⟨by simp, by decide, by intro v hv; simp at hv; subst hv; decide⟩

theorem put_sends : Mix.Sends [] (asks 2) (chunks 2) (wire 2) := by
  have hal : put.Allowed [] := Http.request_allowed .put params [13, 10] (by decide)
  have hn : ∀ (b : UInt8) (n : Nat), (b, n) ∈ ([(50, 2), (57, 9)] : List (UInt8 × Nat)) → NatArg [b] n := by
    intro b n h
    simp only [List.mem_cons, Prod.mk.injEq, List.not_mem_nil, or_false] at h
    rcases h with ⟨rfl, rfl⟩ | ⟨rfl, rfl⟩
    · exact ⟨by decide, ⟨[], [], [50], rfl, by decide, by decide, by decide, Or.inl ⟨Or.inl rfl, by decide⟩⟩, by decide⟩
    · exact ⟨by decide, ⟨[], [], [57], rfl, by decide, by decide, by decide, Or.inl ⟨Or.inl rfl, by decide⟩⟩, by decide⟩
  have has : put.Asks (some 2) none (some 9) :=
    ⟨⟨[50], by decide, hn _ _ (by decide), by decide⟩, show Http.Request.param _ _ = none by decide, ⟨[57], by decide, hn _ _ (by decide), by decide⟩⟩
  refine Or.inr ⟨.put (.cas 2) [107] [13, 10] 9 none, put, rfl, rfl, put_ok, hal, ?_, fun j => ?_⟩
  · exact Mix.Requests.put (r := put) (how := .cas 2) (flags := some 9) rfl has (by decide) (by decide)
  · rcases j with _ | _ | j
    · exact Or.inl rfl
    · right; decide
    · right
      show put.wire.length ≤ (([put.wire.take (put.wire.length - 1), put.wire.drop (put.wire.length - 1)] : List Bytes).take (j + 2)).flatten.length + _
      rw [List.take_of_length_le (by simp)]
      decide

theorem minus8 : IntArg [45, 56] (-8) := ⟨by decide, ⟨[], [45], [56], rfl, by decide, by decide, by decide, by decide⟩, by unfold IsI64; decide⟩

theorem clients : Mix.Clients [] kind asks chunks wire := by
  have key : Mc.Key [107] := by unfold Mc.Key; decide
  have nat : ∀ (t : Bytes) (n : Nat), (t ≠ [] ∧ t.length ≤ 20 ∧ (∀ b ∈ t, b ∈ ([48, 49, 50, 51, 52, 53, 54, 55, 56, 57] : Bytes)) ∧ decimal t = n) → Mc.NatText t n :=
    fun t n h => h
  have ok1 : r1.Ok 5 0 0 := ⟨key, nat _ _ (by decide), by decide, Or.inl ⟨0, nat _ _ (by decide), rfl, by decide⟩, by unfold IsI64; decide, nat _ _ (by decide), by decide, nat _ _ (by decide), by decide⟩
  have ok2 : r2.Ok 7 0 2 := ⟨key, nat _ _ (by decide), by decide, Or.inl ⟨0, nat _ _ (by decide), rfl, by decide⟩, by unfold IsI64; decide, nat _ _ (by decide), by decide, nat _ _ (by decide), by decide⟩
  have hg : Mix.Written .memcache (.mc (.get true [[107]])) gets := .mc (.get (tokens := true) (by simp) (by simpa using key))
  refine ⟨fun t ht => ?_, fun t ht => ?_, fun t => ?_⟩
  · have h2 : t ≠ 2 := by rintro rfl; exact ht rfl
    by_cases h3 : t = 3
    · subst h3
      refine .cons (.pg (ws := [[115, 101, 116], [122], [97, 32, 98]]) pg_idle rfl (.set ((spells_iff _ _ (by decide)).2 (by decide))) ⟨?_, by decide, ?_, rfl⟩ (by decide) (by decide))
        (.cons (.pg (ws := [[77, 71, 69, 84], [107], [122]]) pg_idle rfl (.mget ((spells_iff _ _ (by decide)).2 (by decide)) (by simp)) ⟨?_, by decide, ?_, rfl⟩ (by decide) (by decide))
        (.cons (.pg (ws := [[68, 101, 99, 114, 66, 121], [107], [45, 56]]) pg_idle rfl (.countBy (down := true) ((spells_iff _ _ (by decide)).2 (by decide)) minus8) ⟨?_, by decide, ?_, rfl⟩ (by decide) (by decide))
        (.cons (.pg (ws := [[112, 114, 101, 112, 101, 110, 100], [107], [120]]) pg_idle rfl (.join (front := true) ((spells_iff _ _ (by decide)).2 (by decide))) ⟨?_, by decide, ?_, rfl⟩ (by decide) (by decide))
        (.cons (.pg (ws := [[105, 110, 99, 114], [107]]) pg_idle rfl (.count (down := false) ((spells_iff _ _ (by decide)).2 (by decide))) ⟨?_, by decide, ?_, rfl⟩ (by decide) (by decide)) .nil))))
      · simp [Pg.Valid, setQ, Pg.Piece.Ok]
      · simp [setQ]
      · simp [Pg.Valid, mgetQ, Pg.Piece.Ok]
      · simp [mgetQ]
      · simp [Pg.Valid, decrQ, Pg.Piece.Ok]
      · simp [decrQ]
      · simp [Pg.Valid, prependQ, Pg.Piece.Ok]
      · simp [prependQ]
      · simp [Pg.Valid, incrQ, Pg.Piece.Ok]
      · simp [incrQ]
    unfold asks wire kind four two
    simp only [if_neg h2, if_neg h3]
    split
    · exact .cons (.mc (.store (how := .set) ok1 rfl rfl (by simp))) (.cons hg (.cons (.mc (.store (how := .cas 2) ok2 rfl rfl (by simp))) (.cons hg .nil)))
    · split
      · exact .cons (.resp incr_words incr_enc) .nil
      · exact .nil
  · have h2 : t = 2 := by
      unfold kind at ht
      split at ht
      · cases ht
      · split at ht
        · assumption
        · split at ht <;> cases ht
    subst h2
    exact put_sends
  · unfold chunks wire four two
    split
    · decide
    · split
      · decide
      split
      · decide
      · split
        · decide
        · decide

/-- What the first four clients were sent; whether no counter has wrapped; and the order of the commits. -/
def outcome (sched : List Nat) : Option (List Bytes × Bool × List Nat) :=
  (runSched (Mix.server ctx4 4 kind [] Wire.Example.sys clock addr) sched
    (Conc.start (fun t => (t, Mix.opened (kind t) [] Wire.Example.sys (clock t) (chunks t))) (newCache ctx4)) []).map fun x =>
    ([(x.1.loc 0).2.sent, (x.1.loc 1).2.sent, (x.1.loc 2).2.sent, (x.1.loc 3).2.sent], noWrapB 4 x.1.mem, x.2)

theorem outcome_exec {sched : List Nat} {x y z w : Bytes} {h : List Nat} (ho : outcome sched = some ([x, y, z, w], true, h)) :
    ∃ s, Conc.Exec (Mix.server ctx4 4 kind [] Wire.Example.sys clock addr) (fun t => (t, Mix.opened (kind t) [] Wire.Example.sys (clock t) (chunks t))) (newCache ctx4) s h ∧
      NoWrap 4 s.mem ∧ (s.loc 0).2.sent = x ∧ (s.loc 1).2.sent = y ∧ (s.loc 2).2.sent = z ∧ (s.loc 3).2.sent = w := by
  unfold outcome at ho
  rw [Option.map_eq_some_iff] at ho
  obtain ⟨⟨s, h'⟩, h1, h2⟩ := ho
  simp only [Prod.mk.injEq, List.cons.injEq] at h2
  obtain ⟨⟨g1, g2, g3, g5, _⟩, g4, rfl⟩ := h2
  exact ⟨s, runSched_exec .start h1, noWrapB_iff.1 g4, g1, g2, g3, g5⟩

/-- The RESP client comes in between the `gets` and the `cas`. -/
def between : List Nat := List.replicate 10 0 ++ List.replicate 6 1 ++ List.replicate 9 0

/-- Hypotheses of `all_served` and `cas_safe`, for two interleavings without the HTTP client.  If INCR comes in between, `cas` is answered EXISTS, and then the memcache client sees the 42 that the RESP
client was told, with a new token and the old flags; if it comes later, `cas` is answered STORED. -/
example : ctx4.Valid ∧ ctx4.usecas = true ∧ AllInv ctx4 4 (newCache ctx4) ∧ R ctx4 4 0 (newCache ctx4) ⟨fun _ => none, fun _ => 1⟩ ∧
    (∀ b ∈ Wire.Example.sys.version, 32 ≤ b) ∧ (∀ t i, Mix.Fine (kind t) (clock t i)) ∧ (∀ t i, 0 ≤ (clock t i).now) ∧ Mix.Clients [] kind asks chunks wire ∧
    (Mix.server ctx4 4 kind [] Wire.Example.sys clock addr).Ok ∧
    (∃ s, Conc.Exec (Mix.server ctx4 4 kind [] Wire.Example.sys clock addr) (fun t => (t, Mix.opened (kind t) [] Wire.Example.sys (clock t) (chunks t))) (newCache ctx4) s
      [0, 0, 1, 0, 0] ∧ NoWrap 4 s.mem ∧ (s.loc 0).2.sent = [83, 84, 79, 82, 69, 68, 13, 10, 86, 65, 76, 85, 69, 32, 107, 32, 53, 32, 50, 32, 50, 13, 10, 52, 49, 13, 10, 69, 78, 68, 13, 10, 69, 88, 73, 83, 84, 83, 13, 10, 86, 65, 76, 85, 69, 32, 107, 32, 53, 32, 50, 32, 51, 13, 10, 52, 50, 13, 10, 69, 78, 68, 13, 10] ∧ (s.loc 1).2.sent = [58, 52, 50, 13, 10] ∧ (s.loc 2).2.sent = [] ∧ (s.loc 3).2.sent = []) ∧
    ∃ s, Conc.Exec (Mix.server ctx4 4 kind [] Wire.Example.sys clock addr) (fun t => (t, Mix.opened (kind t) [] Wire.Example.sys (clock t) (chunks t))) (newCache ctx4) s
      [0, 0, 0, 0] ∧ NoWrap 4 s.mem ∧ (s.loc 0).2.sent = [83, 84, 79, 82, 69, 68, 13, 10, 86, 65, 76, 85, 69, 32, 107, 32, 53, 32, 50, 32, 50, 13, 10, 52, 49, 13, 10, 69, 78, 68, 13, 10, 83, 84, 79, 82, 69, 68, 13, 10, 86, 65, 76, 85, 69, 32, 107, 32, 55, 32, 49, 32, 51, 13, 10, 120, 13, 10, 69, 78, 68, 13, 10] ∧ (s.loc 1).2.sent = [] ∧ (s.loc 2).2.sent = [] ∧ (s.loc 3).2.sent = [] :=
  ⟨ctx4_valid, rfl, allInv_new ctx4_valid 4, R_new ctx4 4 0, by decide, fine, late, clients, addr_ok, outcome_exec (sched := between) (by decide +kernel),
    outcome_exec (sched := List.replicate 20 0) (by decide +kernel)⟩

/-- The HTTP client comes in between. -/
def putBetween : List Nat := List.replicate 10 0 ++ List.replicate 5 2 ++ List.replicate 10 0

/-- And one with it: PUT is answered 200, `cas` with the same token is answered EXISTS, and then the memcache client sees what the HTTP client has put, with its flags. -/
example : (∃ s, Conc.Exec (Mix.server ctx4 4 kind [] Wire.Example.sys clock addr) (fun t => (t, Mix.opened (kind t) [] Wire.Example.sys (clock t) (chunks t))) (newCache ctx4) s
      [0, 0, 2, 0, 0] ∧ NoWrap 4 s.mem ∧
      (s.loc 0).2.sent = [83, 84, 79, 82, 69, 68, 13, 10, 86, 65, 76, 85, 69, 32, 107, 32, 53, 32, 50, 32, 50, 13, 10, 52, 49, 13, 10, 69, 78, 68, 13, 10, 69, 88, 73, 83, 84, 83, 13, 10, 86, 65, 76, 85, 69, 32, 107, 32, 57, 32, 50, 32, 51, 13, 10, 13, 10, 13, 10, 69, 78, 68, 13, 10] ∧ (s.loc 1).2.sent = [] ∧
      (s.loc 2).2.sent = [72, 84, 84, 80, 47, 49, 46, 49, 32, 50, 48, 48, 32, 79, 75, 13, 10, 67, 111, 110, 116, 101, 110, 116, 45, 76, 101, 110, 103, 116, 104, 58, 32, 56, 13, 10, 67, 111, 110, 110, 101, 99, 116, 105, 111, 110, 58, 32, 67, 108, 111, 115, 101, 13, 10, 13, 10, 83, 116, 111, 114, 101, 100, 13, 10] ∧ (s.loc 3).2.sent = []) ∧
    Http.readResponse [72, 84, 84, 80, 47, 49, 46, 49, 32, 50, 48, 48, 32, 79, 75, 13, 10, 67, 111, 110, 116, 101, 110, 116, 45, 76, 101, 110, 103, 116, 104, 58, 32, 56, 13, 10, 67, 111, 110, 110, 101, 99, 116, 105, 111, 110, 58, 32, 67, 108, 111, 115, 101, 13, 10, 13, 10, 83, 116, 111, 114, 101, 100, 13, 10] = some (200, Mix.stored) :=
  ⟨outcome_exec (sched := putBetween) (by decide +kernel), by decide +kernel⟩


/-- The RESP client comes in between the two keys of MGET. -/
def incrBetween : List Nat := List.replicate 5 0 ++ List.replicate 9 3 ++ List.replicate 6 1 ++ List.replicate 4 3

/-- What MGET is answered. -/
def mgetBytes : Bytes := [84, 0, 0, 0, 52, 0, 2, 107, 101, 121, 0, 0, 0, 0, 0, 0, 0, 0, 0, 0, 25, 255, 255, 255, 255, 255, 255, 0, 1, 118, 97, 108, 117, 101, 0, 0, 0, 0, 0, 0, 0, 0, 0, 0, 25, 255, 255, 255, 255, 255, 255, 0, 1, 68, 0, 0, 0, 17, 0, 2, 0, 0, 0, 1, 107, 0, 0, 0, 2, 52, 49, 68, 0, 0, 0, 18, 0, 2, 0, 0, 0, 1, 122, 0, 0, 0, 3, 97, 32, 98, 67, 0, 0, 0, 11, 77, 71, 69, 84, 32, 50, 0, 90, 0, 0, 0, 5, 73]

/-- And one with the Postgres client: SET is answered "SET 1"; MGET, whose second key is read after the INCR of the RESP client, has the value before the INCR, and the value that SET has stored. -/
example : (∃ s, Conc.Exec (Mix.server ctx4 4 kind [] Wire.Example.sys clock addr) (fun t => (t, Mix.opened (kind t) [] Wire.Example.sys (clock t) (chunks t))) (newCache ctx4) s
      [0, 3, 3, 1, 3] ∧ NoWrap 4 s.mem ∧ (s.loc 0).2.sent = [83, 84, 79, 82, 69, 68, 13, 10] ∧ (s.loc 1).2.sent = [58, 52, 50, 13, 10] ∧ (s.loc 2).2.sent = [] ∧
      (s.loc 3).2.sent = [67, 0, 0, 0, 10, 83, 69, 84, 32, 49, 0, 90, 0, 0, 0, 5, 73] ++ mgetBytes) ∧
    Pg.getAnswer mgetBytes = some (.table [([107, 101, 121], 25), (Mix.valueName, 25)] [[[107], [52, 49]], [[122], [97, 32, 98]]] [77, 71, 69, 84, 32, 50], []) :=
  ⟨outcome_exec (sched := incrBetween) (by decide +kernel), by decide +kernel⟩

/-- All of the Postgres client, with the RESP client before its DECRBY. -/
def countAfter : List Nat := List.replicate 5 0 ++ List.replicate 14 3 ++ List.replicate 6 1 ++ List.replicate 17 3

/-- What DECRBY, PREPEND and INCR are answered. -/
def countBytes : Bytes := [84, 0, 0, 0, 30, 0, 1, 118, 97, 108, 117, 101, 0, 0, 0, 0, 0, 0, 0, 0, 0, 0, 25, 255, 255, 255, 255, 255, 255, 0, 1, 68, 0, 0, 0, 12, 0, 1, 0, 0, 0, 2, 53, 48, 67, 0, 0, 0, 11, 68, 69, 67, 82, 66, 89, 0, 90, 0, 0, 0, 5, 73, 67, 0, 0, 0, 14, 80, 82, 69, 80, 69, 78, 68, 32, 51, 0, 90, 0, 0, 0, 5, 73, 69, 0, 0, 0, 67, 83, 69, 82, 82, 79, 82, 0, 86, 69, 82, 82, 79, 82, 0, 67, 50, 51, 53, 48, 53, 0, 77, 118, 97, 108, 117, 101, 32, 105, 115, 32, 110, 111, 116, 32, 97, 110, 32, 105, 110, 116, 101, 103, 101, 114, 32, 111, 114, 32, 111, 117, 116, 32, 111, 102, 32, 114, 97, 110, 103, 101, 0, 0, 90, 0, 0, 0, 5, 73]

/-- And one with all of it: DECRBY by -8 after the INCR of the RESP client gives 50; PREPEND makes it "x50", which INCR refuses. -/
example : (∃ s, Conc.Exec (Mix.server ctx4 4 kind [] Wire.Example.sys clock addr) (fun t => (t, Mix.opened (kind t) [] Wire.Example.sys (clock t) (chunks t))) (newCache ctx4) s
      [0, 3, 3, 3, 1, 3, 3, 3] ∧ NoWrap 4 s.mem ∧ (s.loc 0).2.sent = [83, 84, 79, 82, 69, 68, 13, 10] ∧ (s.loc 1).2.sent = [58, 52, 50, 13, 10] ∧ (s.loc 2).2.sent = [] ∧
      (s.loc 3).2.sent = [67, 0, 0, 0, 10, 83, 69, 84, 32, 49, 0, 90, 0, 0, 0, 5, 73] ++ mgetBytes ++ countBytes) ∧
    Pg.getAnswer countBytes = some (.table [(Mix.valueName, 25)] [[[53, 48]]] (Mix.countTag true true), countBytes.drop 62) ∧
    Pg.getAnswer (countBytes.drop 62) = some (.done (Mix.joinTag true 3), countBytes.drop 83) ∧
    ∃ fields, Pg.getAnswer (countBytes.drop 83) = some (.failed fields, []) :=
  ⟨outcome_exec (sched := countAfter) (by decide +kernel), by decide +kernel, by decide +kernel,
    [(83, [69, 82, 82, 79, 82]), (86, [69, 82, 82, 79, 82]), (67, [50, 51, 53, 48, 53]), (77, [118, 97, 108, 117, 101, 32, 105, 115, 32, 110, 111, 116, 32, 97, 110, 32, 105, 110, 116, 101, 103, 101, 114, 32, 111, 114, 32, 111, 117, 116, 32, 111, 102, 32, 114, 97, 110, 103, 101])], by decide +kernel⟩

/-- Hypotheses of `query_kept`: the SET of the Postgres client, when the server runs out of memory. -/
example : Pg.Idle pg ∧ pg.error = false ∧ PgWords (.set [122] [97, 32, 98]) [[115, 101, 116], [122], [97, 32, 98]] ∧ Pg.Writes setQ [[115, 101, 116], [122], [97, 32, 98]] ∧
    (Pg.text setQ).length + 5 < 2147483648 ∧ ∃ r, Runs ⟨true, false, fun _ => 0⟩ busy true 900
      (Pg.serve id ⟨[49], false, []⟩ (clock 3 0) [] (admin Wire.Example.sys) ⟨pg, ⟨true⟩, true⟩ (sql setQ)) ⟨fun _ => none, fun _ => 1⟩ r ⟨fun _ => none, update (fun _ => 1) 0 2⟩ := by
  have hs : Spells [115, 101, 116] setName := (spells_iff _ _ (by decide)).2 (by decide)
  have hw : Pg.Writes setQ [[115, 101, 116], [122], [97, 32, 98]] := ⟨by simp [Pg.Valid, setQ, Pg.Piece.Ok], by decide, by simp [setQ], rfl⟩
  refine ⟨pg_idle, rfl, .set hs, hw, by decide, ?_⟩
  rw [sql, query_serve (p := cmdSET (clock 3 0) [[115, 101, 116], [122], [97, 32, 98]]) pg_idle hw (by decide) hs (by decide : (setName, Fn.cmdSET) ∈ cmds) (plain_names _ (by decide)) rfl]
  refine ⟨_, runs_map_of (a := [.err .outOfMemory]) ?_⟩
  exact .call (s1 := ⟨fun _ => none, fun _ => 1⟩) (r := ⟨.nomem, []⟩) (s2 := ⟨fun _ => none, update (fun _ => 1) 0 2⟩) trivial (Or.inl ⟨rfl, rfl, rfl⟩) (.ret _ _)

/-- Hypotheses of `sniff_http`: the first packet of the HTTP client. -/
example : put.Ok ∧ put.wire.take (put.wire.length - 1) <+: put.wire ∧ put.wire.length ≤ (put.wire.take (put.wire.length - 1)).length + put.body.length := by
  exact ⟨put_ok, List.take_prefix _ _, by decide⟩

/-- Hypotheses of `no_lost_update` and `one_winner`: a story with a `gets` and two `cas` with its token, the second of them in HTTP, of which the first stores. -/
example : ∃ (asks : Nat → List Mix.Ask) (evs : List Event) (rs ps : Nat → List Ans) (m m' : Mix.Store), Bounded m ∧ Story [] (fun _ _ => ⟨5, 5, false, .memcache⟩) asks m evs rs ps m' ∧
    evs.map (·.ask) = [.mc (.get true [[107]]), .mc (.store (.cas 2) [107] [120] 7 0), .http (.put (.cas 2) [107] [121] 7 none)] ∧
    evs.map (·.ans) = [.mc (.values true [⟨[107], 5, some 2, [49]⟩]), .mc (.line McWire.stored), .http 404 Mix.notFound] := by
  let m : Mix.Store := ⟨update (fun _ => none) [107] (some ⟨[49], 5, none, 2⟩), fun _ => 2⟩
  have hm : Bounded m := by
    intro k x hx
    by_cases hk : k = [107]
    · subst hk
      simp only [m, update_self, Option.some.injEq] at hx
      subst hx
      exact Nat.le_refl _
    · simp [m, update_of_ne hk] at hx
  have dr : ∀ (now : Int) (ks : List Bytes) (m : Mix.Store), Mix.Drops now ks m m := fun _ _ _ => ⟨rfl, fun _ => Or.inl rfl⟩
  let as : Nat → List Mix.Ask := two [.mc (.get true [[107]]), .mc (.store (.cas 2) [107] [120] 7 0)] [.http (.put (.cas 2) [107] [121] 7 none)]
  let y : McWire.Held := ⟨[120], 7, none, 3⟩
  have e1 : Mix.Serves [] 5 5 m (.mc (.get true [[107]])) (.mc (.values true [⟨[107], 5, some 2, [49]⟩])) m := .mc .get
  have e2 : Mix.Serves [] 5 5 m (.mc (.store (.cas 2) [107] [120] 7 0)) (.mc (.line McWire.stored)) (m.put [107] y) :=
    .mc (.cas (x := ⟨[49], 5, none, 2⟩) rfl rfl (by decide))
  have e3 : Mix.Serves [] 5 5 (m.put [107] y) (.http (.put (.cas 2) [107] [121] 7 none)) (.http 404 Mix.notFound) (m.put [107] y) :=
    .http (.putNot (by rintro ⟨x, hx, hc⟩; cases hx; exact absurd hc (by decide)))
  have s1 := Story.one (ver := []) (clock := fun _ _ => ⟨5, 5, false, .memcache⟩) (asks := as) (m := m) .none
    (Next.last (t := 0) (a := .mc (.get true [[107]])) rfl rfl rfl (dr 5 _ m) e1)
  have s2 := Story.one s1 (Next.last (t := 0) (a := .mc (.store (.cas 2) [107] [120] 7 0)) rfl rfl rfl (dr 5 _ m) e2)
  have s3 := Story.one s2 (Next.last (t := 1) (a := .http (.put (.cas 2) [107] [121] 7 none)) rfl rfl rfl (dr 5 _ _) e3)
  exact ⟨_, _, _, _, _, _, hm, s3, rfl, rfl⟩

end Verif.Mix.Example
