import Mathlib.Tactic.Common
import Verif.Cross.Props
import Verif.Pg.Service

/-!
C97: examples.
-/

namespace Verif.Cross

open Verif.Num Verif.Resp Verif.Cmd Verif.Cache
open Function (update)

/-- A server without password. -/
def srv : Srv := ⟨⟨true, false, fun _ => 0⟩, [], noOther, fun _ => [], fun _ => 0, Pg.conf1⟩

def five : At := ⟨5, 1000, false⟩
def late : At := ⟨9000000005, 1000, false⟩

def empty : Spec.State := ⟨fun _ => none, fun _ => 0⟩
/-- `k` holds CR LF, with flags 7, for nine seconds. -/
def full : Spec.State := ⟨update (fun _ => none) [107] (some ⟨[13, 10], 9000000005, 7, 1⟩), update (fun _ => 0) 0 1⟩

/-- `set k 7 9 2`, data CR LF. -/
def setK : Mc.Store := ⟨.set, [107], [55], [57], [50], [48], false, [13, 10]⟩

theorem setK_ok : setK.Ok 7 9 0 :=
  ⟨⟨by decide, by decide, by decide⟩, ⟨by decide, by decide, by decide, by decide⟩, by decide,
    Or.inl ⟨9, ⟨by decide, by decide, by decide, by decide⟩, rfl, by decide⟩, by unfold IsI64; decide,
    ⟨by decide, by decide, by decide, by decide⟩, by decide, ⟨by decide, by decide, by decide, by decide⟩, by decide⟩

theorem put : Puts srv busy five [107] [13, 10] 7 (some 9) empty full := by
  refine .mc (oom := false) (rest := [1]) setK_ok (Or.inl rfl) rfl rfl (Or.inr ⟨rfl, by decide, by decide⟩) ?_ rfl
  unfold serveMc
  rw [(Mc.store_framed setK_ok).2.1]
  refine runs_map_of (a := ([W.raw storedLine], ⟨true⟩)) ?_
  rw [show setK.command = [setName, [107], [13, 10], [102, 108, 97, 103, 115], [55], [101, 120], [57]] from rfl,
    evcommand_known (fn := .cmdSET) spells_self (by decide)]
  refine .call (s1 := empty) (r := ⟨.inserted, []⟩) (s2 := full) trivial ?_ (.ret _ _)
  simp [Spec.Step, show empty.dict.get five.now [107] = none from rfl]
  exact ⟨fun h => absurd h (by decide), Or.inl rfl⟩

/-- `get k` -/
def getK : Pg.Query := [(false, .word getName), (false, .quoted [107])]

theorem getK_writes : Pg.Writes getK [getName, [107]] := ⟨by simp [getK, Pg.Valid, Pg.Piece.Ok]; decide, by simp [getK], by simp [getK], rfl⟩

theorem pgRead : Reads srv (Leaves 5 [107]) five [107] (some ⟨[13, 10], none⟩) full full := by
  have hq := Pg.query_exact_partial srv.hash [] Pg.client1.pg getK_writes.valid (by simp [getK]) getK_writes.apart getK_writes.noParam
  have hrun : Runs srv.env (Leaves 5 [107]) false 5 (cmdGET (five.env .postgres) [getName, [107]]) full
      ([.pg (.desc [valueCol]), .pg (.row [[13, 10]])] ++ pgEnd [71, 69, 84, 32, 49]) full := by
    refine .call (s1 := full) (r := ⟨.found, [([107], ⟨[13, 10], 9000000005, 7, 1⟩)]⟩) (s2 := full) rfl ?_ (.ret _ _)
    simp [Spec.Step, show full.dict.get 5 [107] = some ⟨[13, 10], 9000000005, 7, 1⟩ from rfl]
  have hx := Pg.serve_runs (hash := srv.hash) (c := srv.conf) (x := Pg.client1) (e := five.env .postgres) (other := noOther) (low := getName) (fn := .cmdGET) (Or.inl rfl) (Pg.frame_query [7] (by decide)) hq rfl spells_self (by decide)
    (by decide) rfl hrun (by decide)
  exact .pgHit Pg.client1_idle (Or.inl rfl) spells_self getK_writes (by decide) hx (by decide) (cols := [(valueCol, Pg.client1.pg.oid)]) (tag := [71, 69, 84, 32, 49]) (by decide +kernel)

/-- `*2 $3 GET $1 k` -/
def wire : Bytes := [42, 50, 13, 10, 36, 51, 13, 10, 71, 69, 84, 13, 10, 36, 49, 13, 10, 107, 13, 10]

theorem wire_enc : Enc [[71, 69, 84], [107]] wire := by
  refine ⟨[50], _, ⟨by decide, by decide, by decide, by decide⟩, by decide, ?_, rfl⟩
  exact .cons (w := [36, 51, 13, 10, 71, 69, 84, 13, 10]) ⟨[51], ⟨by decide, by decide, by decide, by decide⟩, by decide, rfl⟩
    (.cons (w := [36, 49, 13, 10, 107, 13, 10]) ⟨[49], ⟨by decide, by decide, by decide, by decide⟩, by decide, rfl⟩ .nil)

theorem respRead : Reads srv (Leaves late.now [107]) late [107] none full full := by
  have hs : Spells [71, 69, 84] getName := (spells_iff _ _ (by decide)).2 (by decide)
  have hnull : Answers [.null] .null := answers_val .null (by unfold Val.Ok; trivial) (fun _ => rfl)
  refine .respMiss (oom := false) (rest := [1]) hs wire_enc (bytes := renderAll [.null] []) ?_ (.of_answers hnull)
  unfold serveResp
  rw [(enc_framed wire_enc).2.1]
  refine runs_map_of (a := ([W.null], ⟨true⟩)) ?_
  rw [evcommand_known (fn := .cmdGET) hs (by decide)]
  refine .call (s1 := full) (r := ⟨.notfound, []⟩) (s2 := full) rfl ?_ (.ret _ _)
  simp [Spec.Step, show full.dict.get late.now [107] = none from rfl]

/-- `k` is removed. -/
def gone : Spec.State := ⟨update full.dict [107] none, full.tok⟩

theorem remove : Removes srv busy five [107] full gone := by
  have ha := Http.request_allowed .delete [] [13, 10] (by decide)
  have hok := Http.request_ok .delete [] (by simp)
  refine .http (oom := false) (r := Http.request .delete [] [13, 10]) (extra := []) (bytes := ([W.http 200 [68, 101, 108, 101, 116, 101, 100, 13, 10]].map (Http.respond fun _ => [])).flatten) hok rfl ha rfl ?_
  unfold Http.serve
  rw [show srv.pw = [] from rfl, (Http.http_request_exact _ hok [] []).1 ha]
  refine runs_map_of (a := ([W.http 200 [68, 101, 108, 101, 116, 101, 100, 13, 10]], ⟨true⟩)) ?_
  rw [show (Http.request .delete [] [13, 10]).command = [delName, [107]] from rfl, evcommand_known (fn := .cmdDEL) spells_self (by decide)]
  refine .call (s1 := full) (r := ⟨.deleted, []⟩) (s2 := gone) trivial ?_ (.ret _ _)
  simp [Spec.Step, show full.dict.get five.now [107] = some ⟨[13, 10], 9000000005, 7, 1⟩ from rfl, gone]

theorem mcRead : Reads srv (Leaves 5 [107]) five [107] none gone gone := by
  have hk : Mc.Key [107] := ⟨by decide, by decide, by decide⟩
  refine .mcMiss (oom := false) (gets := false) (rest := [1]) (n := 1) (bytes := [69, 78, 68, 13, 10]) hk ?_ (client_all (by decide))
  unfold serveMc
  have hline : Mc.Line [mcWord false, [107]] [mcGetName false, [107]] false := .get (by simp) (by simpa using hk)
  rw [(Mc.request_framed (Or.inr (Or.inl ⟨_, _, _, hline, rfl, rfl⟩)) (by decide)).2.1]
  refine runs_map_of (a := ([W.raw [69, 78, 68, 13, 10]], ⟨true⟩)) ?_
  rw [evcommand_known (fn := .cmdMGET) spells_self (by decide)]
  refine .call (s1 := gone) (r := ⟨.notfound, []⟩) (s2 := gone) rfl ?_ (.ret _ _)
  simp [Spec.Step, show gone.dict.get five.now [107] = none from rfl]

/-- Hypotheses of `removed_here_gone_there`: removed over HTTP, asked for over memcache. -/
example : five.now ≤ five.now ∧ Removes srv busy five [107] full gone ∧ Leaves five.now [107] gone gone ∧ Reads srv (Leaves five.now [107]) five [107] none gone gone :=
  ⟨le_refl _, remove, rfl, mcRead⟩

/-- Hypotheses of `stored_here_read_there`: stored over memcache, read over Postgres after no time, and over RESP after nine seconds. -/
example : five.Ok ∧ Puts srv busy five [107] [13, 10] 7 (some 9) empty full ∧ Leaves five.now [107] full full ∧
    Reads srv (Leaves five.now [107]) five [107] (some ⟨[13, 10], none⟩) full full ∧ Lasts five.now 9 five.now ∧
    Reads srv (Leaves late.now [107]) late [107] none full full ∧ ¬ Lasts five.now 9 late.now :=
  ⟨by simp only [At.Ok, five, IsI64]; decide, put, rfl, pgRead, by simp only [Lasts, five]; decide, respRead, by simp only [Lasts, five, late]; decide⟩

end Verif.Cross
