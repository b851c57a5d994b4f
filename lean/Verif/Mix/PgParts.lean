import Mathlib.Tactic.Common
import Verif.Mix.HttpParts

/-!
C110: queries of Postgres clients are served part by part.
-/

namespace Verif.Mix

open Verif.Num Verif.Resp Verif.Cmd Verif.Cache Verif.Shard Verif.Map Function
open Verif.Many (Neat Atomic Single Goods Shape cut One one_ret one_call one_set neat_last neat_cut cut_runs batched_of)

variable {env : Spec.Env} {t0 : Int} {e : Env} {pw : Bytes} {y : Sys} {hash : Nat → Nat} {conf : Pg.Conf} {pg : Pg.State}

/-- The environment of a query: the protocol, memory is not low, times of 64 bits. -/
def FinePg (e : Env) : Prop := e.proto = .postgres ∧ 0 < e.now ∧ IsI64 e.now ∧ e.lowmem = false

/-! ### Messages -/

/-- The parser waits for the end of a message. -/
theorem frame_wait {t : UInt8} {s p : Bytes} (ht : t ≠ 0) (hs : s.length + 4 < 2147483648) (hp : p <+: Pg.message t s) (hne : p ≠ Pg.message t s) : Pg.frame p = .more := by
  obtain ⟨rest, hr⟩ := hp
  have hrest : rest ≠ [] := by
    rintro rfl
    rw [List.append_nil] at hr
    exact hne hr
  unfold Pg.message Pg.be32 at hr
  simp only [List.cons_append, List.nil_append] at hr
  match p, hr with
  | [], _ => rfl
  | [a], hr =>
    have h1 := (List.cons.inj hr).1
    subst h1
    rw [Pg.frame] <;> (intros; contradiction)
  | [a, _], hr =>
    have h1 := (List.cons.inj hr).1
    subst h1
    rw [Pg.frame] <;> (intros; simp_all)
  | [a, _, _], hr =>
    have h1 := (List.cons.inj hr).1
    subst h1
    rw [Pg.frame] <;> (intros; simp_all)
  | [a, _, _, _], hr =>
    have h1 := (List.cons.inj hr).1
    subst h1
    rw [Pg.frame] <;> (intros; simp_all)
  | a :: b :: c :: d :: f :: p, hr =>
    simp only [List.cons_append, List.cons.injEq] at hr
    obtain ⟨rfl, rfl, rfl, rfl, rfl, rfl⟩ := hr
    have hl : 0 < rest.length := List.length_pos_iff.2 hrest
    rw [List.length_append] at hs ⊢
    rw [Pg.frame]
    · rw [Pg.readI32_be32 hs]
      rw [if_neg (by omega), if_neg (by omega), if_pos (by push_cast; omega)]
    · intros; contradiction

theorem framed_pg {q : Pg.Query} (hlen : (Pg.text q).length + 5 < 2147483648) :
    Framed (parseOf pw (.postgres hash conf pg)) (.pg hash conf pg (Pg.message 81 (Pg.queryMsg (Pg.text q)))) (Pg.message 81 (Pg.queryMsg (Pg.text q))) := by
  refine ⟨by simp [Pg.message], fun rest => ?_, fun p h1 h2 _ => ?_⟩
  · unfold parseOf
    simp only []
    rw [Pg.frame_query rest hlen]
    simp [PR.bind]
  · unfold parseOf
    simp only []
    rw [frame_wait (by decide) (by rw [Pg.queryMsg, List.length_append, List.length_singleton]; omega) h1 h2]
    rfl

/-! ### Programs -/

/-- What is sent of what is written. -/
def sentPg (pg : Pg.State) (out : List W) : Bytes × Bool :=
  ((out.flatMap (Pg.send pg)).flatten, !decide (W.close ∉ out ∧ W.undefined ∉ out ∧ W.failed ∉ out))

section
variable {q : Pg.Query} {name low : Bytes} {as : List Bytes} {fn : Fn} {p : Prog (List W)}

theorem query_handle (hw : Pg.Writes q (name :: as)) (pw : Bytes) :
    Pg.handle hash pw pg (.typed 81 (Pg.queryMsg (Pg.text q))) = .ok (name :: as) { pg with error := false } := by
  have hne : q ≠ [] := by rintro rfl; have := hw.words; simp at this
  have := Pg.query_exact_partial hash pw pg hw.valid hne hw.apart hw.noParam
  rw [hw.words] at this
  exact this

theorem pgArgs_of {msg : Bytes} {m : Pg.Msg} {n : Nat} {args args' : List Bytes} {st st' : Pg.State} (h1 : Pg.frame msg = .got (m, n)) (h2 : Pg.handle hash [] pg m = .ok args st)
    (h3 : Pg.precommand st args = .inr (args', st')) : pgArgs hash pg msg = args' := by
  unfold pgArgs
  rw [h1]
  dsimp only
  rw [h2]
  dsimp only
  rw [h3]

theorem query_serve (hi : Pg.Idle pg) (hw : Pg.Writes q (name :: as)) (hlen : (Pg.text q).length + 5 < 2147483648) (hs : Spells name low) (hm : (low, fn) ∈ cmds)
    (hn : low.map lower = low ∧ low ∉ ([[98, 101, 103, 105, 110], [114, 111, 108, 108, 98, 97, 99, 107], [99, 111, 109, 109, 105, 116]] : List Bytes) ∧ 58 ∉ low)
    (hcall : call e pw (admin y) fn (name :: as) ⟨true⟩ = p.map (·, ⟨true⟩)) :
    Pg.serve hash conf e pw (admin y) ⟨pg, ⟨true⟩, true⟩ (Pg.message 81 (Pg.queryMsg (Pg.text q))) =
      p.map fun out => (out.flatMap (Pg.send { pg with error := false }), (Pg.message 81 (Pg.queryMsg (Pg.text q))).length,
        ⟨{ pg with error := false }, ⟨true⟩, decide (W.close ∉ out ∧ W.undefined ∉ out ∧ W.failed ∉ out)⟩) := by
  have hf := Pg.frame_query (q := Pg.text q) [] hlen
  rw [List.append_nil] at hf
  rw [Pg.serve_some (x := ⟨pg, ⟨true⟩, true⟩) hf (query_handle hw pw) hi.ready, Pg.perform, Pg.precommand_command hn.1 hs hn.2.1 hn.2.2]
  simp only []
  rw [Pg.evcommand_allowed (Or.inr rfl) hs hm, hcall, Verif.Cmd.Prog.map_map]
  rfl

theorem query_run (hi : Pg.Idle pg) (he : pg.error = false) (hw : Pg.Writes q (name :: as)) (hlen : (Pg.text q).length + 5 < 2147483648) (hs : Spells name low)
    (hm : (low, fn) ∈ cmds)
    (hn : low.map lower = low ∧ low ∉ ([[98, 101, 103, 105, 110], [114, 111, 108, 108, 98, 97, 99, 107], [99, 111, 109, 109, 105, 116]] : List Bytes) ∧ 58 ∉ low)
    {own : Bool} (hb : decide (fn = .cmdINCR ∨ fn = .cmdDECR ∨ fn = .cmdINCRBY ∨ fn = .cmdDECRBY ∨ fn = .cmdAPPEND ∨ fn = .cmdPREPEND) = own)
    (hcall : call e pw (admin y) fn (name :: as) ⟨true⟩ = p.map (·, ⟨true⟩)) :
    batchedReq (.pg hash conf pg (Pg.message 81 (Pg.queryMsg (Pg.text q)))) = own ∧
      run e pw y (.pg hash conf pg (Pg.message 81 (Pg.queryMsg (Pg.text q)))) = p.map (sentPg pg) := by
  have hpg : { pg with error := false } = pg := by cases pg; cases he; rfl
  refine ⟨?_, ?_⟩
  · have hf := Pg.frame_query (q := Pg.text q) [] hlen
    rw [List.append_nil] at hf
    rw [batchedReq, pgArgs_of hf (query_handle hw []) (Pg.precommand_command hn.1 hs hn.2.1 hn.2.2), batched_of hs hm]
    exact hb
  · rw [run, query_serve hi hw hlen hs hm hn hcall, Verif.Cmd.Prog.map_map, hpg]
    rfl

end

/-- The names of the commands. -/
def plainNames : List Bytes :=
  [getName, setName, delName, mgetName, incrName false false false, incrName false false true, incrName true false false, incrName true false true, appendName false, appendName true]

/-- The names of the commands, as the parser and the table of commands want them. -/
theorem plain_names : ∀ low ∈ plainNames,
    low.map lower = low ∧ low ∉ ([[98, 101, 103, 105, 110], [114, 111, 108, 108, 98, 97, 99, 107], [99, 111, 109, 109, 105, 116]] : List Bytes) ∧ 58 ∉ low := by decide

/-- The connection is the same after a query, as assumed in `run`. -/
theorem query_kept {a : PgAsk} {ws : List Bytes} {q : Pg.Query} (hi : Pg.Idle pg) (he : pg.error = false) (ha : PgWords a ws) (hw : Pg.Writes q ws)
    (hlen : (Pg.text q).length + 5 < 2147483648) {I : Spec.State → Spec.State → Prop} {oom : Bool} {s s' : Spec.State} {r : List Bytes × Nat × Pg.Client}
    (h : Runs env I oom e.now (Pg.serve hash conf e pw (admin y) ⟨pg, ⟨true⟩, true⟩ (Pg.message 81 (Pg.queryMsg (Pg.text q)))) s r s') :
    r.2.2.pg = pg ∧ r.2.2.st = ⟨true⟩ ∧ r.2.1 = (Pg.message 81 (Pg.queryMsg (Pg.text q))).length := by
  have hpg : { pg with error := false } = pg := by cases pg; cases he; rfl
  have key : ∀ {name low : Bytes} {as : List Bytes} {fn : Fn} {p : Prog (List W)}, ws = name :: as → Spells name low → (low, fn) ∈ cmds → low ∈ plainNames →
      call e pw (admin y) fn (name :: as) ⟨true⟩ = p.map (·, ⟨true⟩) → r.2.2.pg = pg ∧ r.2.2.st = ⟨true⟩ ∧ r.2.1 = (Pg.message 81 (Pg.queryMsg (Pg.text q))).length := by
    intro name low as fn p h1 h2 h3 h4 h5
    subst h1
    rw [query_serve hi hw hlen h2 h3 (plain_names low h4) h5, hpg] at h
    obtain ⟨out, _, rfl⟩ := runs_map h
    exact ⟨rfl, rfl, rfl⟩
  cases ha with
  | get hs => exact key (p := cmdGET e _) rfl hs (by decide : (getName, Fn.cmdGET) ∈ cmds) (by decide) rfl
  | set hs => exact key (p := cmdSET e _) rfl hs (by decide : (setName, Fn.cmdSET) ∈ cmds) (by decide) rfl
  | del hs => exact key (p := cmdDEL e _) rfl hs (by decide : (delName, Fn.cmdDEL) ∈ cmds) (by decide) rfl
  | @countBy down name k t _ hs _ =>
    cases down
    · exact key (p := cmdINCRDECRBY e [name, k, t] false) rfl hs (by decide : (incrName false false true, Fn.cmdINCRBY) ∈ cmds) (by decide) rfl
    · exact key (p := cmdINCRDECRBY e [name, k, t] true) rfl hs (by decide : (incrName true false true, Fn.cmdDECRBY) ∈ cmds) (by decide) rfl
  | @count down name k hs =>
    cases down
    · exact key (p := cmdINCRDECR e [name, k] false) rfl hs (by decide : (incrName false false false, Fn.cmdINCR) ∈ cmds) (by decide) rfl
    · exact key (p := cmdINCRDECR e [name, k] true) rfl hs (by decide : (incrName true false false, Fn.cmdDECR) ∈ cmds) (by decide) rfl
  | @join front name k v hs =>
    cases front
    · exact key (p := cmdAPPEND e [name, k, v]) rfl hs (by decide : (appendName false, Fn.cmdAPPEND) ∈ cmds) (by decide) rfl
    · exact key (p := cmdAPPEND e [name, k, v]) rfl hs (by decide : (appendName true, Fn.cmdPREPEND) ∈ cmds) (by decide) rfl
  | mget hs => exact key (p := cmdMGET e _) rfl hs (by decide : (mgetName, Fn.cmdMGET) ∈ cmds) (by decide) rfl

/-! ### What is written -/

theorem row_length (cols : List Bytes) : (Pg.sendRow cols).length = 7 + (cols.map fun c => 4 + c.length).sum := by
  have h : ∀ cols : List Bytes, (cols.flatMap fun c => Pg.writeI32 c.length ++ c).length = (cols.map fun c => 4 + c.length).sum := by
    intro cols
    induction cols with
    | nil => rfl
    | cons c cols ih =>
      rw [List.flatMap_cons, List.length_append, ih, List.map_cons, List.sum_cons, List.length_append]
      rfl
  rw [Pg.sendRow, List.length_cons, List.length_append, List.length_append, h]
  have h1 : (Pg.writeI32 (6 + (cols.map fun c => 4 + c.length).sum)).length = 4 := rfl
  have h2 : (Pg.writeI16 cols.length).length = 2 := rfl
  omega

/-- A table is read as it is. -/
theorem says_table (hi : Pg.Idle pg) {names : List Bytes} {rows : List (List Bytes)} {t : Bytes} (h0 : 0 ∉ t) (ht : t.length ≤ Wire.longest) (hn : names = [valueName] ∨ names = [[107, 101, 121], valueName])
    (hr : ∀ r ∈ rows, r.length = names.length ∧ ∀ c ∈ r, c.length ≤ Wire.longest) :
    Says (.pg (.table names rows t)) ((W.pg (.desc names) :: (rows.map (fun r => W.pg (.row r)) ++ pgEnd t)).flatMap (Pg.send pg)).flatten := by
  refine ⟨pg.oid, fun rest => Pg.read_table hi h0 ?_ ?_ (fun r hr' => (hr r hr').1) ?_ rest⟩
  · rcases hn with rfl | rfl <;> decide
  · rcases hn with rfl | rfl <;> decide
  · intro b hb
    have hl : Wire.longest = 536870912 := rfl
    rw [List.flatMap_cons, List.flatMap_append] at hb
    rcases List.mem_append.1 hb with hb | hb
    · rw [show Pg.send pg (.pg (.desc names)) = [Pg.sendDesc pg.oid names] from rfl, List.mem_singleton] at hb
      subst hb
      rcases hn with rfl | rfl <;> simp [Pg.sendDesc, Pg.writeI32, Pg.writeI16, valueName]
    rcases List.mem_append.1 hb with hb | hb
    · obtain ⟨w, hw, hb⟩ := List.mem_flatMap.1 hb
      obtain ⟨r, hr', rfl⟩ := List.mem_map.1 hw
      rw [show Pg.send pg (.pg (.row r)) = [Pg.sendRow r] from rfl, List.mem_singleton] at hb
      subst hb
      rw [row_length]
      obtain ⟨g1, g2⟩ := hr r hr'
      have hle : r.length ≤ 2 := by
        rcases hn with rfl | rfl
        · rw [g1]; decide
        · rw [g1]; decide
      match r, hle with
      | [], _ => simp
      | [a], _ =>
        have := g2 a (by simp)
        simp
        omega
      | [a, b], _ =>
        have := g2 a (by simp)
        have := g2 b (by simp)
        simp
        omega
    · rw [pgEnd, List.flatMap_cons, List.flatMap_cons, List.flatMap_nil, List.append_nil] at hb
      rcases List.mem_append.1 hb with hb | hb
      · rw [show Pg.send pg (.pg (.complete t)) = [Pg.sendComplete t] from rfl, List.mem_singleton] at hb
        subst hb
        simp [Pg.sendComplete, Pg.writeI32]
        omega
      · rw [Pg.ready_fit hb]
        decide

theorem says_tag (hi : Pg.Idle pg) {t : Bytes} (h0 : 0 ∉ t) (ht : t.length ≤ 100) : Says (.pg (.done t)) ((pgEnd t).flatMap (Pg.send pg)).flatten := by
  refine fun rest => Pg.read_tag hi h0 ?_ rest
  intro b hb
  rw [pgEnd, List.flatMap_cons, List.flatMap_cons, List.flatMap_nil, List.append_nil] at hb
  rcases List.mem_append.1 hb with hb | hb
  · rw [show Pg.send pg (.pg (.complete t)) = [Pg.sendComplete t] from rfl, List.mem_singleton] at hb
    subst hb
    simp [Pg.sendComplete, Pg.writeI32]
    omega
  · rw [Pg.ready_fit hb]
    decide

theorem says_refused (hi : Pg.Idle pg) {m : ErrMsg} (hl : m.text.length ≤ 1000) : Says (.pg .refused) ([W.err m].flatMap (Pg.send pg)).flatten := by
  have hs : (Pg.said m.text).length ≤ m.text.length := by
    unfold Pg.said
    split
    · rw [List.length_drop]; omega
    · exact le_refl _
  have hall : [W.err m].flatMap (Pg.send pg) = [Pg.sendError (Pg.said m.text), [90, 0, 0, 0, 5, 73]] := by
    simp [Pg.send, Pg.writeErr, Pg.said, Pg.sendReady, hi.execute]
  have hf : (Pg.sendError (Pg.said m.text)).length ≤ 2147483648 := by
    simp [Pg.sendError, Pg.writeI32]
    omega
  refine ⟨[(83, [69, 82, 82, 79, 82]), (86, [69, 82, 82, 79, 82]), (67, [50, 51, 53, 48, 53]), (77, Pg.said m.text)], fun rest => ?_⟩
  rw [hall]
  simpa [Pg.failedWith] using Pg.getAnswer_body (Pg.body_err (Pg.nul_text m) hf) rest

/-! ### Queries on one key -/

variable {q : Pg.Query}

/-- Served at once. -/
theorem serving_atomic {a : PgAsk} {msg : Bytes} {p : Prog (List W)} {key : Bytes} {own : Bool} (hp : parts (.pg a) = [.pg a]) (hk : keysOf (.pg a) = [key]) (hwh : ∀ r, whole (.pg a) [r] = r)
    (hb : batchedReq (.pg hash conf pg msg) = own ∧ run e pw y (.pg hash conf pg msg) = p.map (sentPg pg)) (hone : Atomic own key p)
    (hdo : ∀ s m out s', Agr env.grp t0 s m → Runs env alone false e.now p s out s' → ∃ r m', Queries e.now m a r m' ∧ Agr env.grp t0 s' m' ∧
      Says (.pg r) (out.flatMap (Pg.send pg)).flatten ∧ W.close ∉ out ∧ W.undefined ∉ out ∧ W.failed ∉ out) :
    Shape (batchedReq (.pg hash conf pg msg)) (run e pw y (.pg hash conf pg msg)) ∧
      Serving env y.version t0 e (.pg a) (parts (.pg a)) [] (batchedReq (.pg hash conf pg msg)) (run e pw y (.pg hash conf pg msg)) := by
  rw [hb.1, hb.2, hp]
  have hat : Atomic own key (p.map (sentPg pg)) := ⟨hone.1.map, hone.2.imp id fun h => h.map⟩
  refine ⟨⟨hat.1.2.1, fun _ => ⟨key, hat.1⟩⟩, key, neat_cut hat, Or.inl (by rw [hk]; simp), fun s m Q s' hag _ _ hrun => ?_⟩
  obtain ⟨x, rfl, h4⟩ := cut_runs hat hrun
  obtain ⟨out, h5, rfl⟩ := runs_map h4
  obtain ⟨r, m', h6, h7, h8, h9⟩ := hdo s m out s' hag h5
  refine ⟨.pg r, m', .pg h6, h7, Or.inl ⟨rfl, _, ?_, by rw [List.nil_append, hwh]; exact h8⟩⟩
  rw [sentPg, decide_eq_true h9]
  rfl

/-- With one call. -/
theorem serving_single {a : PgAsk} {msg : Bytes} {p : Prog (List W)} {key : Bytes} (hp : parts (.pg a) = [.pg a]) (hk : keysOf (.pg a) = [key]) (hwh : ∀ r, whole (.pg a) [r] = r)
    (hb : batchedReq (.pg hash conf pg msg) = false ∧ run e pw y (.pg hash conf pg msg) = p.map (sentPg pg)) (hone : One key p)
    (hdo : ∀ s m out s', Agr env.grp t0 s m → Runs env alone false e.now p s out s' → ∃ r m', Queries e.now m a r m' ∧ Agr env.grp t0 s' m' ∧
      Says (.pg r) (out.flatMap (Pg.send pg)).flatten ∧ W.close ∉ out ∧ W.undefined ∉ out ∧ W.failed ∉ out) :
    Shape (batchedReq (.pg hash conf pg msg)) (run e pw y (.pg hash conf pg msg)) ∧
      Serving env y.version t0 e (.pg a) (parts (.pg a)) [] (batchedReq (.pg hash conf pg msg)) (run e pw y (.pg hash conf pg msg)) :=
  serving_atomic hp hk hwh hb ⟨hone.1, Or.inr hone.2⟩ hdo

theorem calm_end (t : Bytes) : W.close ∉ pgEnd t ∧ W.undefined ∉ pgEnd t ∧ W.failed ∉ pgEnd t := by simp [pgEnd]

theorem calm_table (names : List Bytes) (rows : List (List Bytes)) (t : Bytes) :
    W.close ∉ W.pg (.desc names) :: (rows.map (fun r => W.pg (.row r)) ++ pgEnd t) ∧ W.undefined ∉ W.pg (.desc names) :: (rows.map (fun r => W.pg (.row r)) ++ pgEnd t) ∧
      W.failed ∉ W.pg (.desc names) :: (rows.map (fun r => W.pg (.row r)) ++ pgEnd t) := by simp [pgEnd]

theorem serving_pgget (hi : Pg.Idle pg) (herr : pg.error = false) (he : FinePg e) (hle : t0 ≤ e.now) {name k : Bytes} (hs : Spells name getName) (hw : Pg.Writes q [name, k])
    (hlen : (Pg.text q).length + 5 < 2147483648) :
    Shape (batchedReq (.pg hash conf pg (Pg.message 81 (Pg.queryMsg (Pg.text q))))) (run e pw y (.pg hash conf pg (Pg.message 81 (Pg.queryMsg (Pg.text q))))) ∧
      Serving env y.version t0 e (.pg (.get k)) (parts (.pg (.get k))) [] (batchedReq (.pg hash conf pg (Pg.message 81 (Pg.queryMsg (Pg.text q)))))
        (run e pw y (.pg hash conf pg (Pg.message 81 (Pg.queryMsg (Pg.text q))))) := by
  refine serving_single rfl rfl (fun _ => rfl)
    (query_run (p := cmdGET e [name, k]) hi herr hw hlen hs (by decide : (getName, Fn.cmdGET) ∈ cmds) (plain_names _ (by decide)) rfl rfl) (one_call rfl trivial fun rr => ?_)
    fun s m out s' hag hx => ?_
  · split <;> split <;> exact ⟨_, rfl⟩
  · have hg := hag.1.get hle k
    unfold cmdGET at hx
    obtain ⟨s1, rr, s2, h1, h2, h3⟩ := runs_call hx
    cases h1
    rw [if_pos he.1] at h3
    obtain ⟨rfl, rfl⟩ := runs_ret h3
    obtain ⟨rfl, ⟨h4, rfl⟩ | ⟨it, h4, rfl⟩⟩ := load_step h2
    · rw [h4] at hg
      rw [if_pos rfl]
      exact ⟨_, m, .getMissing hg, hag, says_table hi (names := [valueName]) (rows := []) (by decide) (by decide) (Or.inl rfl) (by simp), calm_table [valueCol] [] _⟩
    · rw [h4] at hg
      have hv : it.value.length ≤ Wire.longest := (hag.2 k _ (see_earlier hle hg)).1
      have : ([(k, it)].flatMap (getEntry e .get)) = [[it.value]].map fun r => W.pg (.row r) := by simp [getEntry, he.1]
      rw [if_neg (by simp), if_neg (by simp), this]
      exact ⟨_, m, .get hg, hag, says_table hi (names := [valueName]) (rows := [[it.value]]) (by decide) (by decide) (Or.inl rfl) (by simpa [valueName] using hv), calm_table [valueCol] _ _⟩

theorem serving_pgdel (hi : Pg.Idle pg) (herr : pg.error = false) (he : FinePg e) (hle : t0 ≤ e.now) {name k : Bytes} (hs : Spells name delName) (hw : Pg.Writes q [name, k])
    (hlen : (Pg.text q).length + 5 < 2147483648) :
    Shape (batchedReq (.pg hash conf pg (Pg.message 81 (Pg.queryMsg (Pg.text q))))) (run e pw y (.pg hash conf pg (Pg.message 81 (Pg.queryMsg (Pg.text q))))) ∧
      Serving env y.version t0 e (.pg (.del k)) (parts (.pg (.del k))) [] (batchedReq (.pg hash conf pg (Pg.message 81 (Pg.queryMsg (Pg.text q)))))
        (run e pw y (.pg hash conf pg (Pg.message 81 (Pg.queryMsg (Pg.text q))))) := by
  refine serving_single rfl rfl (fun _ => rfl)
    (query_run (p := cmdDEL e [name, k]) hi herr hw hlen hs (by decide : (delName, Fn.cmdDEL) ∈ cmds) (plain_names _ (by decide)) rfl rfl)
    (one_call rfl rfl fun rr => ?_) fun s m out s' hag hx => ?_
  · unfold Cmd.delLoop
    split <;> exact ⟨_, rfl⟩
  · have hg := hag.1.get hle k
    have htk : ∀ i, s.tok i ≤ s'.tok i := McWire.runs_tok hx
    unfold cmdDEL Cmd.delLoop Cmd.delLoop at hx
    simp only [he.1] at hx
    obtain ⟨s1, rr, s2, h1, h2, h3⟩ := runs_call hx
    cases h1
    obtain ⟨rfl, rfl⟩ := runs_ret h3
    cases hd : s.dict.get e.now k with
    | none =>
      rw [hd] at hg
      simp [Spec.Step, hd] at h2
      obtain ⟨rfl, rfl⟩ := h2
      exact ⟨_, m, .delMissing hg, hag, says_tag hi (by decide) (by decide), calm_end _⟩
    | some it =>
      rw [hd] at hg
      simp [Spec.Step, hd] at h2
      obtain ⟨rfl, rfl⟩ := h2
      exact ⟨_, m.drop k, .del (by rw [hg]; simp), ⟨hag.1.drop (update_self _ _ _) (fun j hj => update_of_ne hj _ _) htk, fit_drop hag.2⟩, says_tag hi (by decide) (by decide), calm_end _⟩

theorem serving_pgset (hu : env.usecas = true) (hi : Pg.Idle pg) (herr : pg.error = false) (he : FinePg e) {name k v : Bytes} (hs : Spells name setName)
    (hw : Pg.Writes q [name, k, v]) (hv : v.length ≤ Wire.longest) (hlen : (Pg.text q).length + 5 < 2147483648) :
    Shape (batchedReq (.pg hash conf pg (Pg.message 81 (Pg.queryMsg (Pg.text q))))) (run e pw y (.pg hash conf pg (Pg.message 81 (Pg.queryMsg (Pg.text q))))) ∧
      Serving env y.version t0 e (.pg (.set k v)) (parts (.pg (.set k v))) [] (batchedReq (.pg hash conf pg (Pg.message 81 (Pg.queryMsg (Pg.text q)))))
        (run e pw y (.pg hash conf pg (Pg.message 81 (Pg.queryMsg (Pg.text q))))) := by
  refine serving_single rfl rfl (fun _ => rfl)
    (query_run (p := cmdSET e [name, k, v]) hi herr hw hlen hs (by decide : (setName, Fn.cmdSET) ∈ cmds) (plain_names _ (by decide)) rfl rfl)
    (one_set he.2.2.2 ..) fun s m out s' hag hx => ?_
  have htk : ∀ i, s.tok i ≤ s'.tok i := McWire.runs_tok hx
  replace hx : Runs env alone false e.now (execSET e [83, 69, 84] k v (collect [])) s out s' := hx
  have hfresh : out = pgEnd [83, 69, 84, 32, 49] → McWire.Fresh env k s s' := by
    intro hout
    refine McWire.last_fresh (key := k) (P := fun o => o = pgEnd [83, 69, 84, 32, 49]) (b := False) hu ?_ False.elim (le_refl _) hout hx
    unfold execSET
    intro q hq
    refine ⟨rfl, ?_⟩
    by_contra hst
    unfold setReply at hq
    rw [if_neg (by simp [collect] : ¬ (collect []).get = true)] at hq
    simp only [he.1, if_neg hst] at hq
    split_ifs at hq
    · have := congrArg List.getLast? hq
      simp [pgEnd] at this
    all_goals simp [pgEnd] at hq
  unfold execSET at hx
  obtain ⟨s1, rr, s2, h1, h2, h3⟩ := runs_call hx
  cases h1
  obtain ⟨h4, rfl⟩ := runs_ret h3
  rcases set_step (os := []) (by simp [deadlineOf]) (fun it hit => visible_nonneg he.2.1 hit) h2 with ⟨a1, _, _⟩ | ⟨a1, rfl, a3⟩ | ⟨a1, a2, a3, c, a4⟩
  · simp [he.2.2.2] at a1
  · exact absurd a1 (by cases s.dict.get e.now k <;> simp [Refused, Cmd.tokenOf])
  · have hall : out = pgEnd [83, 69, 84, 32, 49] := by
      rw [h4, setReply, a2, if_neg (by split <;> simp), show (collect []).get = false from rfl, if_neg (by simp)]
      simp only [he.1]
      rw [if_pos (by split <;> simp)]
      rfl
    have hnd : newDeadline [] (s.dict.get e.now k) = 0 := by cases s.dict.get e.now k <;> rfl
    rw [hnd] at a4
    rcases a4 with ⟨a4, a5⟩ | ⟨a4, _⟩
    swap
    · rw [he.2.2.2] at a4; cases a4
    obtain ⟨b1, b2⟩ := McWire.put_fresh hag.1 a4 a5 htk (hfresh hall)
    refine ⟨_, _, .set b1, ⟨b2, fit_put hag.2 ⟨hv, fun d hd => by cases hd⟩⟩, ?_, ?_⟩
    · rw [hall]
      exact says_tag hi (by decide) (by decide)
    · rw [hall]
      exact calm_end _

/-! ### To count and to join -/

theorem last_pgincr {cmd k : Bytes} {d : Int} {decr uns : Bool} (hp : e.proto = .postgres) :
    McWire.Last k (fun o => ∃ t, o = pgRow valueCol t cmd) False (execIncr e cmd k d decr uns) := by
  unfold execIncr
  intro r
  simp only []
  split
  · rw [if_neg (by rw [hp]; decide)]
    intro hq; simp [pgRow] at hq
  · refine McWire.last_ite (fun _ hq => by simp [pgRow] at hq) fun _ => McWire.last_ite (fun _ hq => by simp [pgRow] at hq) fun _ => ?_
    intro r
    exact McWire.last_ite (fun _ hq => by simp [pgRow] at hq) fun _ => McWire.last_ite (fun hst _ => ⟨rfl, hst⟩) fun _ hq => by simp [pgRow] at hq

theorem last_pgappend {w k v : Bytes} (hp : e.proto = .postgres) : McWire.Last k (fun o => ∃ t, o = pgEnd t) False (cmdAPPEND e [w, k, v]) := by
  unfold cmdAPPEND
  intro r
  have hfin : ∀ (len : Nat) (u : Bytes) (x : Int) (cas fl : Nat) (r : Spec.Reply), McWire.Last k (fun o : List W => ∃ t, o = pgEnd t)
      (McWire.Hits k (Cmd.plain k u x cas fl) r)
      (if r.status = .nomem then .ret [.err .outOfMemory]
      else if r.status = .inserted ∨ r.status = .replaced then
        .ret (if e.proto = .memcache then [.raw [83, 84, 79, 82, 69, 68, 13, 10]]
          else if e.proto = .postgres then
            pgEnd ((if argeq w [112, 114, 101, 112, 101, 110, 100] then [80, 82, 69, 80, 69, 78, 68, 32] else [65, 80, 80, 69, 78, 68, 32]) ++ u64toa len)
          else [.int len])
      else .ret [.failed]) := by
    intro len u x cas fl r
    refine McWire.last_ite (fun _ hq => by simp [pgEnd] at hq) fun _ => McWire.last_ite (fun h _ => ⟨rfl, h⟩) fun _ hq => by simp [pgEnd] at hq
  rw [if_neg (by rw [hp]; decide : ¬ e.proto = .memcache)]
  refine McWire.last_ite (fun _ r => hfin _ _ _ _ _ r) fun _ => McWire.last_ite (fun _ hq => by simp [pgEnd] at hq) fun _ => fun r => hfin _ _ _ _ _ r

/-- What counting does. -/
theorem pg_count (hu : env.usecas = true) (hi : Pg.Idle pg) (he : FinePg e) (hle : t0 ≤ e.now) {down by_ : Bool} {k : Bytes} {d : Int} {s s' : Spec.State} {m : Store} {out : List W}
    (hag : Agr env.grp t0 s m) (hx : Runs env alone false e.now (execIncr e (countTag down by_) k d down false) s out s') :
    ∃ r m', Queries e.now m (.count down by_ k d) r m' ∧ Agr env.grp t0 s' m' ∧ Says (.pg r) (out.flatMap (Pg.send pg)).flatten ∧ W.close ∉ out ∧ W.undefined ∉ out ∧ W.failed ∉ out := by
  obtain ⟨hp, h0, _, _⟩ := he
  have hnm : e.proto ≠ .memcache := by rw [hp]; decide
  have hfr := Wire.onlyAt_frame Wire.onlyAt_incr hx
  have htok := McWire.runs_tok hx
  have hfresh : (∃ t, out = pgRow valueCol t (countTag down by_)) → McWire.Fresh env k s s' := fun ho => McWire.last_fresh hu (last_pgincr hp) False.elim (le_refl _) ho hx
  have hg := hag.1.get hle k
  have hin : ∀ x, InR false x ↔ IsI64 x := by intro x; unfold InR IsI64; simp
  have same : Same env k s s' → Agr env.grp t0 s' m := fun h => ⟨hag.1.same (McWire.same_dict hfr h) htok, hag.2⟩
  rcases execIncr_cases h0 (hx.mono (alone_held env k)) with ⟨⟨it, b1, b2⟩, b3, rfl⟩ | ⟨_, b2, _⟩ | ⟨_, x, b1, b2⟩
  · rw [if_neg hnm]
    refine ⟨_, m, .countNot ?_, same b3, says_refused hi (by decide), by simp, by simp, by simp⟩
    rintro ⟨n, ⟨hn, _⟩ | ⟨z, hz, hn⟩⟩
    · rw [hg, b1] at hn; cases hn
    · rw [hg, b1] at hz
      cases hz
      rw [Wire.isNumber_iff] at hn
      have : (McWire.held it).value = it.value := rfl
      rw [this, b2] at hn
      cases hn
  · exact absurd b2 hnm
  · have hnum : Numbered (m.see e.now k) x := by
      rcases b1 with ⟨b1, rfl⟩ | ⟨it, b1, b3⟩
      · exact Or.inl ⟨by rw [hg, b1]; rfl, rfl⟩
      · exact Or.inr ⟨McWire.held it, by rw [hg, b1]; rfl, Wire.isNumber_iff.2 b3⟩
    rcases b2 with ⟨b4, _, b5, rfl⟩ | ⟨b4, ⟨hc, _⟩ | ⟨rfl, c, b5, _⟩⟩
    · exact ⟨_, m, .countOver hnum (fun hc => b4 ((hin _).2 hc)), same b5, says_refused hi (by decide), by simp, by simp, by simp⟩
    · cases hc
    · have hin' := b4.resolve_right hnm
      have hi64 := (hin _).1 hin'
      rw [if_neg hnm, if_pos hp, wrap_id _ _ hin'] at hfresh ⊢
      rw [wrap_id _ _ hin'] at b5
      obtain ⟨c1, c2⟩ := McWire.put_fresh hag.1 b5 hfr htok (hfresh ⟨_, rfl⟩)
      have htext : text64 false (result down x d) = Wire.shown (result down x d) := by
        unfold text64
        simp [Wire.i64toa_shown]
      have hheld : McWire.held ⟨text64 false (result down x d), ((s.dict.get e.now k).map (·.expires)).getD 0, ((s.dict.get e.now k).map (·.flags)).getD 0, c⟩ =
          ⟨Wire.shown (result down x d), ((m.see e.now k).map (·.flags)).getD 0, (m.see e.now k).bind (·.upto), c⟩ := by
        rw [hg, htext]
        cases s.dict.get e.now k <;> rfl
      rw [hheld] at c2
      rw [htext]
      refine ⟨_, _, .count hnum rfl hi64 c1, ⟨c2, fit_put hag.2 ⟨Wire.shown_length hi64, ?_⟩⟩,
        says_table hi (names := [valueName]) (rows := [[Wire.shown (result down x d)]]) ?_ ?_ (Or.inl rfl) ?_, calm_table [valueCol] [[_]] _⟩
      · intro z hz
        change (m.see e.now k).bind (·.upto) = some z at hz
        obtain ⟨w, hw, hz⟩ := Option.bind_eq_some_iff.1 hz
        exact (hag.2 k w (see_earlier hle hw)).2 z hz
      · cases down <;> cases by_ <;> decide
      · cases down <;> cases by_ <;> decide
      · simpa [valueName] using Wire.shown_length hi64

theorem join_tag (front : Bool) {n : Nat} (hn : n ≤ Wire.longest) : 0 ∉ joinTag front n ∧ (joinTag front n).length ≤ 100 := by
  unfold joinTag
  rw [← McWire.u64toa_eq]
  constructor
  · intro hc
    rcases List.mem_append.1 hc with hc | hc
    · revert hc; cases front <;> decide
    · have := u64toa_digits _ _ hc
      revert this; decide
  · have h20 := u64toa_fits n (by rw [Wire.longest] at hn; omega)
    rw [List.length_append]
    cases front <;> simp <;> omega

/-- What joining does. -/
theorem pg_join (hu : env.usecas = true) (hi : Pg.Idle pg) (he : FinePg e) (hle : t0 ≤ e.now) {front : Bool} {name k v : Bytes} (hs : Spells name (appendName front))
    (hv : v.length ≤ Wire.longest) {s s' : Spec.State} {m : Store} {out : List W} (hag : Agr env.grp t0 s m) (hx : Runs env alone false e.now (cmdAPPEND e [name, k, v]) s out s') :
    ∃ r m', Queries e.now m (.join front k v) r m' ∧ Agr env.grp t0 s' m' ∧ Says (.pg r) (out.flatMap (Pg.send pg)).flatten ∧ W.close ∉ out ∧ W.undefined ∉ out ∧ W.failed ∉ out := by
  obtain ⟨hp, h0, _, _⟩ := he
  have hnm : ¬ e.proto = .memcache := by rw [hp]; decide
  have hfr := Wire.onlyAt_frame Wire.onlyAt_append hx
  have htok := McWire.runs_tok hx
  have hfresh : (∃ t, out = pgEnd t) → McWire.Fresh env k s s' := fun ho => McWire.last_fresh hu (last_pgappend hp) False.elim (le_refl _) ho hx
  have hg := hag.1.get hle k
  have hpre : argeq name [112, 114, 101, 112, 101, 110, 100] = front := by
    have := (spells_iff _ _ (by cases front <;> decide)).1 hs
    rw [Bool.eq_iff_iff, argeq_iff, this]
    cases front <;> decide
  have fin : ∀ (u : Bytes) (exp : Int) (fl : Nat) (s0 : Spec.State), s0 = s → 0 ≤ exp → Runs env alone false e.now
      (.call (Cmd.plain k u exp 0 fl) fun r =>
        if r.status = .nomem then .ret [.err .outOfMemory]
        else if r.status = .inserted ∨ r.status = .replaced then
          .ret (pgEnd ((if front = true then [80, 82, 69, 80, 69, 78, 68, 32] else [65, 80, 80, 69, 78, 68, 32]) ++ u64toa u.length))
        else .ret [.failed]) s0 out s' →
      out = pgEnd (joinTag front u.length) ∧ ∃ c, s'.dict k = some ⟨u, exp, fl, c⟩ := by
    intro u exp fl s0 hs0 hexp hr
    obtain ⟨s3, r', s4, hI', hs', hr'⟩ := runs_call hr
    rcases plain_step hs' with ⟨a1, _⟩ | ⟨a1, c, a3⟩
    · cases a1
    · rw [if_neg (by rcases a1 with a1 | a1 <;> rw [a1] <;> decide), if_pos a1] at hr'
      obtain ⟨b1, b2⟩ := runs_ret hr'
      refine ⟨?_, c, ?_⟩
      · rw [b1, joinTag, McWire.u64toa_eq]
      · have hne : Spec.normExp exp = exp := by unfold Spec.normExp; split <;> omega
        rw [b2, a3, update_self, hne]
  unfold cmdAPPEND at hx
  simp only [hpre, if_neg hnm, if_pos hp] at hx
  obtain ⟨s1, r, s2, hI, hst, hr⟩ := runs_call hx
  cases hI
  obtain ⟨rfl, ⟨h2, rfl⟩ | ⟨it, h2, rfl⟩⟩ := load_step hst
  · rw [h2] at hg
    rw [if_pos rfl] at hr
    obtain ⟨rfl, c, a4⟩ := fin v 0 0 _ rfl (le_refl _) hr
    obtain ⟨c1, c2⟩ := McWire.put_fresh hag.1 a4 hfr htok (hfresh ⟨_, rfl⟩)
    obtain ⟨t1, t2⟩ := join_tag front hv
    exact ⟨_, _, .joinNew hg c1, ⟨c2, fit_put hag.2 ⟨hv, fun d hd => by cases hd⟩⟩, says_tag hi t1 t2, calm_end _⟩
  · rw [h2] at hg
    have hlen : (if front = true then v ++ it.value else it.value ++ v).length = v.length + (McWire.held it).value.length := by
      show _ = v.length + it.value.length
      cases front <;> simp [Nat.add_comm]
    have hmax : (maxArgSz : Int) = 536870912 := rfl
    have hlong : Wire.longest = 536870912 := rfl
    rw [if_neg (by simp)] at hr
    change Runs env alone false e.now
      (if ((if front = true then v ++ it.value else it.value ++ v).length : Int) > maxArgSz then .ret [.err .tooLarge]
      else .call (Cmd.plain k (if front = true then v ++ it.value else it.value ++ v) it.expires 0 it.flags) fun r =>
        if r.status = .nomem then .ret [.err .outOfMemory]
        else if r.status = .inserted ∨ r.status = .replaced then
          .ret (pgEnd ((if front = true then [80, 82, 69, 80, 69, 78, 68, 32] else [65, 80, 80, 69, 78, 68, 32]) ++
            u64toa (if front = true then v ++ it.value else it.value ++ v).length))
        else .ret [.failed]) _ out s' at hr
    by_cases hl : v.length + (McWire.held it).value.length ≤ Wire.longest
    · rw [if_neg (by rw [hlen, hmax]; omega)] at hr
      obtain ⟨rfl, c, a4⟩ := fin _ _ _ _ rfl (visible_nonneg h0 h2) hr
      obtain ⟨c1, c2⟩ := McWire.put_fresh hag.1 a4 hfr htok (hfresh ⟨_, rfl⟩)
      rw [hlen]
      obtain ⟨t1, t2⟩ := join_tag front hl
      refine ⟨_, _, .join hg hl c1, ⟨c2, fit_put hag.2 ⟨?_, ?_⟩⟩, says_tag hi t1 t2, calm_end _⟩
      · show (if front = true then v ++ it.value else it.value ++ v).length ≤ _
        omega
      · exact (hag.2 k _ (see_earlier hle hg)).2
    · rw [if_pos (by rw [hlen, hmax]; omega)] at hr
      obtain ⟨rfl, rfl⟩ := runs_ret hr
      exact ⟨_, m, .joinTooLong hg (by omega), ⟨hag.1.same rfl htok, hag.2⟩, says_refused hi (by decide), by simp, by simp, by simp⟩

theorem serving_pgcount (hu : env.usecas = true) (hi : Pg.Idle pg) (herr : pg.error = false) (he : FinePg e) (hle : t0 ≤ e.now) {down by_ : Bool} {name k : Bytes} {as : List Bytes} {d : Int}
    {fn : Fn} {p : Prog (List W)} (hs : Spells name (incrName down false by_)) (hm : (incrName down false by_, fn) ∈ cmds)
    (hfn : decide (fn = .cmdINCR ∨ fn = .cmdDECR ∨ fn = .cmdINCRBY ∨ fn = .cmdDECRBY ∨ fn = .cmdAPPEND ∨ fn = .cmdPREPEND) = true)
    (hcall : call e pw (admin y) fn (name :: as) ⟨true⟩ = p.map (·, ⟨true⟩)) (hprog : p = execIncr e (countTag down by_) k d down false)
    (hw : Pg.Writes q (name :: as)) (hlen : (Pg.text q).length + 5 < 2147483648) :
    Shape (batchedReq (.pg hash conf pg (Pg.message 81 (Pg.queryMsg (Pg.text q))))) (run e pw y (.pg hash conf pg (Pg.message 81 (Pg.queryMsg (Pg.text q))))) ∧
      Serving env y.version t0 e (.pg (.count down by_ k d)) (parts (.pg (.count down by_ k d))) [] (batchedReq (.pg hash conf pg (Pg.message 81 (Pg.queryMsg (Pg.text q)))))
        (run e pw y (.pg hash conf pg (Pg.message 81 (Pg.queryMsg (Pg.text q))))) := by
  subst hprog
  exact serving_atomic rfl rfl (fun _ => rfl) (query_run hi herr hw hlen hs hm (plain_names _ (by cases down <;> cases by_ <;> decide)) hfn hcall)
    ⟨Many.neat_incr .., Or.inl rfl⟩ fun s m out s' hag hx => pg_count hu hi he hle hag hx

theorem serving_pgjoin (hu : env.usecas = true) (hi : Pg.Idle pg) (herr : pg.error = false) (he : FinePg e) (hle : t0 ≤ e.now) {front : Bool} {name k v : Bytes}
    (hs : Spells name (appendName front)) (hw : Pg.Writes q [name, k, v]) (hv : v.length ≤ Wire.longest) (hlen : (Pg.text q).length + 5 < 2147483648) :
    Shape (batchedReq (.pg hash conf pg (Pg.message 81 (Pg.queryMsg (Pg.text q))))) (run e pw y (.pg hash conf pg (Pg.message 81 (Pg.queryMsg (Pg.text q))))) ∧
      Serving env y.version t0 e (.pg (.join front k v)) (parts (.pg (.join front k v))) [] (batchedReq (.pg hash conf pg (Pg.message 81 (Pg.queryMsg (Pg.text q)))))
        (run e pw y (.pg hash conf pg (Pg.message 81 (Pg.queryMsg (Pg.text q))))) := by
  have key : ∀ fn, (appendName front, fn) ∈ cmds → decide (fn = .cmdINCR ∨ fn = .cmdDECR ∨ fn = .cmdINCRBY ∨ fn = .cmdDECRBY ∨ fn = .cmdAPPEND ∨ fn = .cmdPREPEND) = true →
      call e pw (admin y) fn [name, k, v] ⟨true⟩ = (cmdAPPEND e [name, k, v]).map (·, ⟨true⟩) →
      Shape (batchedReq (.pg hash conf pg (Pg.message 81 (Pg.queryMsg (Pg.text q))))) (run e pw y (.pg hash conf pg (Pg.message 81 (Pg.queryMsg (Pg.text q))))) ∧
        Serving env y.version t0 e (.pg (.join front k v)) (parts (.pg (.join front k v))) [] (batchedReq (.pg hash conf pg (Pg.message 81 (Pg.queryMsg (Pg.text q)))))
          (run e pw y (.pg hash conf pg (Pg.message 81 (Pg.queryMsg (Pg.text q))))) := fun fn hm hfn hcall =>
    serving_atomic rfl rfl (fun _ => rfl) (query_run hi herr hw hlen hs hm (plain_names _ (by cases front <;> decide)) hfn hcall)
      ⟨Many.neat_append .., Or.inl rfl⟩ fun s m out s' hag hx => pg_join hu hi he hle hs hv hag hx
  cases front
  · exact key .cmdAPPEND (by decide) rfl rfl
  · exact key .cmdPREPEND (by decide) rfl rfl

/-! ### MGET -/

theorem tag_fit {n : Nat} : (0 : UInt8) ∉ ([77, 71, 69, 84, 32] : Bytes) ++ u64toa n := by
  intro hc
  rcases List.mem_append.1 hc with hc | hc
  · revert hc; decide
  · have := u64toa_digits _ _ hc
    revert this; decide

theorem serving_rows (hi : Pg.Idle pg) (he : FinePg e) (hle : t0 ≤ e.now) {all : List Bytes} (ks : List Bytes) (hks : ks ≠ []) (hk : ∀ k ∈ ks, k.length ≤ Wire.longest) {ver : Bytes}
    (rows : List (List Bytes)) (hrows : ∀ r ∈ rows, r.length = 2 ∧ ∀ c ∈ r, c.length ≤ Wire.longest) (hnum : rows.length + ks.length < 2 ^ 64) (ps : List Ans) (hps : ps.flatMap Ans.rows = rows) :
    Serving env ver t0 e (.pg (.mget all)) (ks.map fun k => .pg (.mget [k])) ps false
      ((mgetLoop e .mget ks ([W.pg (.desc [[107, 101, 121], valueCol])] ++ rows.map fun r => W.pg (.row r)) rows.length).map (sentPg pg)) := by
  have hp := he.1
  induction ks generalizing rows ps with
  | nil => exact absurd rfl hks
  | cons k ks ih =>
    refine ⟨k, neat_last rfl trivial fun r => ⟨_, rfl⟩, Or.inl (List.mem_singleton.2 rfl), fun s m Q s' hag _ _ hr => ?_⟩
    obtain ⟨s1, r, s2, g1, g2, g3⟩ := runs_call hr
    cases g1
    obtain ⟨rfl, rfl⟩ := runs_ret g3
    obtain ⟨rfl, h4⟩ := load_step g2
    have hg := hag.1.get hle k
    have hadd : ∃ rows' : List (List Bytes), (∀ r ∈ rows', r.length = 2 ∧ ∀ c ∈ r, c.length ≤ Wire.longest) ∧ rows'.length + ks.length < 2 ^ 64 ∧
        ([W.pg (.desc [[107, 101, 121], valueCol])] ++ rows.map fun r => W.pg (.row r)) ++ (if r.status = .notfound then (if e.proto = .resp then [W.null] else [])
          else r.shown.flatMap (getEntry e .mget)) = ([W.pg (.desc [[107, 101, 121], valueCol])] ++ rows'.map fun r => W.pg (.row r)) ∧
        (if r.status = .notfound then rows.length else rows.length + 1) = rows'.length ∧
        (ps ++ [Ans.pg (mgetTable ([k].filterMap fun k => (m.see e.now k).map fun x => [k, x.value]))]).flatMap Ans.rows = rows' := by
      rw [List.length_cons] at hnum
      rcases h4 with ⟨h4, rfl⟩ | ⟨it, h4, rfl⟩
      · refine ⟨rows, hrows, by omega, ?_, by simp, ?_⟩
        · rw [if_pos rfl, if_neg (by rw [hp]; decide), List.append_nil]
        · rw [List.flatMap_append, hps]
          simp [Ans.rows, mgetTable, hg, h4]
      · rw [h4] at hg
        refine ⟨rows ++ [[k, it.value]], ?_, ?_, ?_, by simp, ?_⟩
        · intro x hx
          rcases List.mem_append.1 hx with hx | hx
          · exact hrows x hx
          · rw [List.mem_singleton.1 hx]
            refine ⟨rfl, ?_⟩
            intro c hc
            simp only [List.mem_cons, List.not_mem_nil, or_false] at hc
            rcases hc with rfl | rfl
            · exact hk _ (by simp)
            · exact (hag.2 k _ (see_earlier hle hg)).1
        · simp; omega
        · rw [if_neg (by simp), List.map_append]
          simp [getEntry, hp]
        · rw [List.flatMap_append, hps]
          simp [Ans.rows, mgetTable, hg, McWire.held]
    obtain ⟨rows', i1, i0, i2, i4, i3⟩ := hadd
    refine ⟨_, m, .pg .mget, hag, ?_⟩
    beta_reduce
    rw [i2, i4]
    cases ks with
    | nil =>
      left
      have hout : ([W.pg (.desc [[107, 101, 121], valueCol])] ++ rows'.map fun r => W.pg (.row r)) ++ pgEnd ([77, 71, 69, 84, 32] ++ u64toa rows'.length) =
          W.pg (.desc [[107, 101, 121], valueCol]) :: (rows'.map (fun r => W.pg (.row r)) ++ pgEnd ([77, 71, 69, 84, 32] ++ u64toa rows'.length)) := by simp
      refine ⟨rfl, ((W.pg (.desc [[107, 101, 121], valueCol]) :: (rows'.map (fun r => W.pg (.row r)) ++ pgEnd ([77, 71, 69, 84, 32] ++ u64toa rows'.length))).flatMap (Pg.send pg)).flatten, ?_, ?_⟩
      · unfold mgetLoop
        simp only [hp, reduceCtorEq, if_false, if_true, Prog.map]
        rw [hout, sentPg, decide_eq_true (calm_table ..)]
        rfl
      · show Says (.pg (mgetTable ((ps ++ _).flatMap Ans.rows))) _
        rw [i3, mgetTable, ← McWire.u64toa_eq]
        refine says_table hi tag_fit ?_ (Or.inr rfl) i1
        have h20 := u64toa_fits rows'.length (by simpa using i0)
        rw [List.length_append]
        show 5 + _ ≤ 536870912
        omega
    | cons k' ks =>
      right
      refine ⟨by simp, ⟨_, _, rfl⟩, ?_⟩
      exact ih (by simp) (fun j hj => hk j (by simp [hj])) rows' i1 i0 _ i3

theorem words_fit {q : Pg.Query} {ws : List Bytes} (hw : Pg.Writes q ws) : ws.length ≤ (Pg.text q).length + 1 := by
  have h : ∀ q : Pg.Query, (∀ x ∈ q, x.1 = false) → q.length ≤ (Pg.tailText q).length := by
    intro q
    induction q with
    | nil => intro _; simp
    | cons x q ih =>
      intro h
      obtain ⟨g, p⟩ := x
      have h1 : g = false := h (g, p) (by simp)
      have h2 := ih fun x hx => h x (by simp [hx])
      rw [Pg.tailText, h1]
      simp
      omega
  rw [← hw.words, List.length_map]
  cases q with
  | nil => simp
  | cons x q =>
    obtain ⟨g, p⟩ := x
    have h2 := h q fun x hx => hw.apart x (by simp [hx])
    rw [Pg.text]
    simp
    omega

/-- Any query. -/
theorem serving_pg (hu : env.usecas = true) (he : FinePg e) (hle : t0 ≤ e.now) {a : PgAsk} {ws : List Bytes} (hi : Pg.Idle pg) (herr : pg.error = false) (ha : PgWords a ws)
    (hw : Pg.Writes q ws) (hl : ∀ w ∈ ws, w.length ≤ Wire.longest) (hlen : (Pg.text q).length + 5 < 2147483648) :
    Shape (batchedReq (.pg hash conf pg (Pg.message 81 (Pg.queryMsg (Pg.text q))))) (run e pw y (.pg hash conf pg (Pg.message 81 (Pg.queryMsg (Pg.text q))))) ∧
      Serving env y.version t0 e (.pg a) (parts (.pg a)) [] (batchedReq (.pg hash conf pg (Pg.message 81 (Pg.queryMsg (Pg.text q)))))
        (run e pw y (.pg hash conf pg (Pg.message 81 (Pg.queryMsg (Pg.text q))))) := by
  cases ha with
  | get hs => exact serving_pgget hi herr he hle hs hw hlen
  | set hs => exact serving_pgset hu hi herr he hs hw (hl _ (by simp)) hlen
  | del hs => exact serving_pgdel hi herr he hle hs hw hlen
  | @countBy down name k t d hs ht =>
    have huns : ¬ (name.head?.map lower = some 117) := by
      rw [head_spells hs (by cases down <;> decide)]
      cases down <;> decide
    have hpar : parse64 false t = some d := Wire.isNumber_iff.1 (Or.inr ht)
    have hprog : ∀ dn, cmdINCRDECRBY e [name, k, t] dn = execIncr e (countTag dn true) k d dn false := by
      intro dn
      unfold cmdINCRDECRBY
      simp only [huns, decide_false, hpar]
      cases dn <;> rfl
    cases down
    · exact serving_pgcount (p := cmdINCRDECRBY e [name, k, t] false) hu hi herr he hle hs (by decide : (incrName false false true, Fn.cmdINCRBY) ∈ cmds) rfl rfl (hprog _) hw hlen
    · exact serving_pgcount (p := cmdINCRDECRBY e [name, k, t] true) hu hi herr he hle hs (by decide : (incrName true false true, Fn.cmdDECRBY) ∈ cmds) rfl rfl (hprog _) hw hlen
  | @count down name k hs =>
    have huns : ¬ (name.head?.map lower = some 117) := by
      rw [head_spells hs (by cases down <;> decide)]
      cases down <;> decide
    have hprog : ∀ dn, cmdINCRDECR e [name, k] dn = execIncr e (countTag dn false) k 1 dn false := by
      intro dn
      unfold cmdINCRDECR
      simp only [huns, decide_false]
      cases dn <;> rfl
    cases down
    · exact serving_pgcount (p := cmdINCRDECR e [name, k] false) hu hi herr he hle hs (by decide : (incrName false false false, Fn.cmdINCR) ∈ cmds) rfl rfl (hprog _) hw hlen
    · exact serving_pgcount (p := cmdINCRDECR e [name, k] true) hu hi herr he hle hs (by decide : (incrName true false false, Fn.cmdDECR) ∈ cmds) rfl rfl (hprog _) hw hlen
  | join hs => exact serving_pgjoin hu hi herr he hle hs hw (hl _ (by simp)) hlen
  | @mget name ks hs hne =>
    obtain ⟨k1, k2⟩ := query_run (hash := hash) (conf := conf) (e := e) (pw := pw) (y := y) (p := cmdMGET e (name :: ks)) hi herr hw hlen hs (by decide : (mgetName, Fn.cmdMGET) ∈ cmds)
      (plain_names _ (by decide)) rfl rfl
    have hloop : cmdMGET e (name :: ks) = mgetLoop e .mget ks [W.pg (.desc [[107, 101, 121], valueCol])] 0 := by
      obtain ⟨k0, ks0, rfl⟩ := List.exists_cons_of_ne_nil hne
      unfold cmdMGET
      have h1 : argeq name [109, 103, 101, 116, 115] = false := by rw [argeq_spells (by decide) hs]; decide
      simp only [h1, Bool.false_eq_true, if_false, he.1, reduceCtorEq, if_true]
      rfl
    rw [k1, k2, hloop]
    refine ⟨⟨Goods.map ?_, fun hc => by cases hc⟩, ?_⟩
    · have : ∀ (ks : List Bytes) out n, Goods (mgetLoop e .mget ks out n) := by
        intro ks
        induction ks with
        | nil => intro out n; trivial
        | cons k ks ih => exact fun out n => ⟨trivial, fun r => ih _ _⟩
      exact this ..
    · have := words_fit hw
      rw [List.length_cons] at this
      exact serving_rows hi he hle ks hne (fun k hk => hl k (by simp [hk])) [] (by simp) (by simp; omega) [] rfl

end Verif.Mix
