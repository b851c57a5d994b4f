import Mathlib.Tactic.Common
import Verif.Pg.Extended
import Verif.Cmd.Service

/-!
C78: MGET for Postgres clients.  C84: PING, ECHO and DBSIZE for Postgres clients.
-/

namespace Verif.Pg

open Verif.Num Verif.Resp Verif.Cache Verif.Cmd
open Function (update)

variable {env : Spec.Env} {I : Spec.State → Spec.State → Prop} {oom : Bool} {hash : Nat → Nat} {c : Conf} {e : Env} {pw : Bytes} {y : Sys} {x x' : Client}
  {s s' : Spec.State} {out : List Bytes} {n : Nat}

/-- The rows expected for keys, if nobody else is active: key and value of those that are there, in the order asked for. -/
def rowsFor (now : Int) (s : Spec.State) (ks : List Bytes) : List (List Bytes) := ks.filterMap fun k => (s.dict.get now k).map fun it => [k, it.value]

theorem mget_rows (hp : e.proto = .postgres) (ks : List Bytes) (out0 : List W) {n : Nat} {o : List W}
    (h : Runs env alone oom e.now (mgetLoop e .mget ks out0 n) s o s') :
    s' = s ∧ o = out0 ++ (rowsFor e.now s ks).map (fun r => W.pg (.row r)) ++ pgEnd ([77, 71, 69, 84, 32] ++ u64toa (n + (rowsFor e.now s ks).length)) := by
  induction ks generalizing out0 n with
  | nil =>
    unfold mgetLoop at h
    obtain ⟨rfl, rfl⟩ := runs_ret h
    simp [rowsFor, hp]
  | cons k ks ih =>
    unfold mgetLoop at h
    obtain ⟨s1, r, s2, h1, h2, h3⟩ := runs_call h
    cases h1
    obtain ⟨rfl, ⟨h4, rfl⟩ | ⟨it, h4, rfl⟩⟩ := load_step h2
    · obtain ⟨a1, a2⟩ := ih _ h3
      refine ⟨a1, ?_⟩
      rw [a2]
      simp [rowsFor, h4, hp]
    · obtain ⟨a1, a2⟩ := ih _ h3
      refine ⟨a1, ?_⟩
      rw [a2]
      have : rowsFor e.now s2 (k :: ks) = [k, it.value] :: rowsFor e.now s2 ks := by simp [rowsFor, h4]
      rw [this]
      simp [getEntry, hp, Nat.add_assoc, Nat.add_comm 1]

/-- **C78**, MGET.  For all keys and values, if nobody else is active: the table has a row for each key that is there, in the order asked for, with exactly the key and its value, and the
tag says how many; nothing is changed. -/
theorem pg_mget_exact {other : Fn → Env → List Bytes → Prog (List W)} (hp : e.proto = .postgres) (hi : Idle x.pg) (ha : Allowed pw x.st) {q : Query} {name : Bytes} {ks : List Bytes} (hk : ks ≠ [])
    (hw : Writes q (name :: ks)) (hs : Spells name mgetName) (hlen : (text q).length + 5 < 2147483648) {rest : Bytes}
    (h : Runs env alone oom e.now (serve hash c e pw other x (message 81 (queryMsg (text q)) ++ rest)) s (out, n, x') s') (hf : ∀ b ∈ out, b.length ≤ 2147483648) (rest' : Bytes) :
    s' = s ∧ getAnswer (out.flatten ++ rest') = some (.table [([107, 101, 121], x.pg.oid), (valueCol, x.pg.oid)] (rowsFor e.now s ks)
      ([77, 71, 69, 84, 32] ++ u64toa (rowsFor e.now s ks).length), rest') := by
  obtain ⟨o, hx, rfl⟩ := query_runs hi ha hw hlen hs (by decide : (mgetName, Fn.cmdMGET) ∈ cmds) (by decide) rfl h
  obtain ⟨k, ks, rfl⟩ := List.exists_cons_of_ne_nil hk
  unfold cmdMGET at hx
  have h1 : argeq name [109, 103, 101, 116, 115] = false := by rw [argeq_spells (by decide) hs]; decide
  simp only [h1, Bool.false_eq_true, if_false, hp, reduceCtorEq, if_true] at hx
  obtain ⟨rfl, rfl⟩ := mget_rows hp _ _ hx
  refine ⟨rfl, ?_⟩
  rw [Nat.zero_add, List.append_assoc, List.singleton_append] at hf ⊢
  have hd : (0 : UInt8) ∉ ([77, 71, 69, 84, 32] : Bytes) ++ u64toa (rowsFor e.now s' (k :: ks)).length := by
    intro hc
    rcases List.mem_append.1 hc with hc | hc
    · revert hc; decide
    · have := u64toa_digits _ _ hc
      revert this; decide
  exact read_table (hi.error false) (names := [[107, 101, 121], valueCol]) (rows := rowsFor e.now s' (k :: ks)) hd (by decide) (by decide)
    (fun r hr => by
      obtain ⟨k', -, hk'⟩ := List.mem_filterMap.1 hr
      obtain ⟨it, -, rfl⟩ := Option.map_eq_some_iff.1 hk'
      rfl) hf rest'

/-- **C84.**  PING and ECHO with a text are answered by a table with this text, whatever it is. -/
theorem pg_echo_exact {t : Bytes} (hp : e.proto = .postgres) (hi : Idle x.pg) (ha : Allowed pw x.st) {q : Query} {name : Bytes}
    (hw : Writes q [name, t]) (hs : Spells name echoName ∨ Spells name pingName) (hlen : (text q).length + 5 < 2147483648) {rest : Bytes}
    (h : Runs env I oom e.now (serve hash c e pw (admin y) x (message 81 (queryMsg (text q)) ++ rest)) s (out, n, x') s') (hf : ∀ b ∈ out, b.length ≤ 2147483648) (rest' : Bytes) :
    s' = s ∧ ∃ tag, getAnswer (out.flatten ++ rest') = some (.table [(messageCol, x.pg.oid)] [[t]] tag, rest') := by
  rcases hs with hs | hs
  · obtain ⟨o, hx, rfl⟩ := query_runs hi ha hw hlen hs (by decide : (echoName, Fn.cmdECHO) ∈ cmds) (by decide) (p := cmdECHO e [name, t]) rfl h
    unfold cmdECHO at hx
    obtain ⟨rfl, rfl⟩ := runs_ret hx
    rw [if_pos hp] at hf ⊢
    exact ⟨rfl, [69, 67, 72, 79], read_table (hi.error false) (names := [messageCol]) (rows := [[t]]) (by decide) (by decide) (by decide) (by simp) hf rest'⟩
  · obtain ⟨o, hx, rfl⟩ := query_runs hi ha hw hlen hs (by decide : (pingName, Fn.cmdPING) ∈ cmds) (by decide) (p := cmdPING e [name, t]) rfl h
    unfold cmdPING at hx
    obtain ⟨rfl, rfl⟩ := runs_ret hx
    rw [if_pos hp] at hf ⊢
    exact ⟨rfl, [80, 73, 78, 71], read_table (hi.error false) (names := [messageCol]) (rows := [[t]]) (by decide) (by decide) (by decide) (by simp) hf rest'⟩

/-- **C84.**  DBSIZE for Postgres: the number `y.count` (`dbsize_exact`) in decimal. -/
theorem pg_dbsize_exact (hp : e.proto = .postgres) (hi : Idle x.pg) (ha : Allowed pw x.st) {q : Query} {name : Bytes}
    (hw : Writes q [name]) (hs : Spells name dbsizeName) (hlen : (text q).length + 5 < 2147483648) {rest : Bytes}
    (h : Runs env I oom e.now (serve hash c e pw (admin y) x (message 81 (queryMsg (text q)) ++ rest)) s (out, n, x') s') (hf : ∀ b ∈ out, b.length ≤ 2147483648) (rest' : Bytes) :
    s' = s ∧ ∃ tag t, Dec t y.count ∧ getAnswer (out.flatten ++ rest') = some (.table [([99, 111, 117, 110, 116], x.pg.oid)] [[t]] tag, rest') := by
  obtain ⟨o, hx, rfl⟩ := query_runs hi ha hw hlen hs (by decide : (dbsizeName, Fn.cmdDBSIZE) ∈ cmds) (by decide) (p := cmdDBSIZE y e [name]) rfl h
  unfold cmdDBSIZE at hx
  obtain ⟨rfl, rfl⟩ := runs_ret hx
  rw [if_pos hp] at hf ⊢
  exact ⟨rfl, [68, 66, 83, 73, 90, 69], i64toa y.count, i64toa_dec _, read_table (hi.error false) (names := [[99, 111, 117, 110, 116]]) (rows := [[i64toa y.count]]) (by decide) (by decide) (by decide) (by simp) hf rest'⟩

/-- `mget k "j" k`. -/
def mgetKJK : Query := [(false, .word mgetName), (false, .word [107]), (false, .quoted [106]), (false, .word [107])]

/-- Hypotheses of `pg_mget_exact`: only `k` is there. -/
example (hash : Nat → Nat) : Idle client1.pg ∧ Allowed [] client1.st ∧ Writes mgetKJK [mgetName, [107], [106], [107]] ∧ (text mgetKJK).length + 5 < 2147483648 ∧
    rowsFor 5 st1 [[107], [106], [107]] = [[[107], [120]], [[107], [120]]] ∧
    ∃ out n x' s', Runs ⟨true, false, fun _ => 0⟩ alone false 5 (serve hash conf1 (at_ .postgres 5) [] (admin sys1) client1 (message 81 (queryMsg (text mgetKJK)) ++ [7]))
      st1 (out, n, x') s' ∧ ∀ b ∈ out, b.length ≤ 2147483648 := by
  have hw : Writes mgetKJK [mgetName, [107], [106], [107]] := ⟨by simp [mgetKJK, Valid, Piece.Ok]; decide, by simp [mgetKJK], by simp [mgetKJK], rfl⟩
  have hq := query_exact_partial hash [] client1.pg hw.valid (by simp [mgetKJK]) hw.apart hw.noParam
  have hk : ∀ s', Spec.Step ⟨true, false, fun _ => 0⟩ false 5 (.load [107] false (some fun _ => none)) st1 ⟨.found, [([107], ⟨[120], 0, 0, 1⟩)]⟩ s' ↔ s' = st1 := by
    intro s'; unfold Spec.Step; simp [show st1.dict.get 5 [107] = some ⟨[120], 0, 0, 1⟩ from rfl]
  have hj : ∀ s', Spec.Step ⟨true, false, fun _ => 0⟩ false 5 (.load [106] false (some fun _ => none)) st1 ⟨.notfound, []⟩ s' ↔ s' = st1 := by
    intro s'; unfold Spec.Step; simp [show st1.dict.get 5 [106] = none from rfl]
  have hrun : Runs ⟨true, false, fun _ => 0⟩ alone false 5 (cmdMGET (at_ .postgres 5) [mgetName, [107], [106], [107]]) st1
      ([.pg (.desc [[107, 101, 121], valueCol]), .pg (.row [[107], [120]]), .pg (.row [[107], [120]])] ++ pgEnd [77, 71, 69, 84, 32, 50]) st1 :=
    .call rfl ((hk _).2 rfl) (.call rfl ((hj _).2 rfl) (.call rfl ((hk _).2 rfl) (.ret _ _)))
  have hx := serve_runs (hash := hash) (c := conf1) (e := at_ .postgres 5) (other := admin sys1) (low := mgetName) (fn := .cmdMGET) (Or.inl rfl) (frame_query [7] (by decide)) hq rfl spells_self (by decide)
    (by decide) rfl hrun (by decide)
  exact ⟨client1_idle, Or.inl rfl, hw, by decide, by decide, _, _, _, _, hx, by decide⟩

/-- `echo 'a'`. -/
def echoA : Query := [(false, .word echoName), (false, .quoted [97])]

/-- Hypotheses of `pg_echo_exact`; those of `pg_dbsize_exact` are alike. -/
example (hash : Nat → Nat) : Idle client1.pg ∧ Allowed [] client1.st ∧ Writes echoA [echoName, [97]] ∧ (text echoA).length + 5 < 2147483648 ∧
    ∃ out n x' s', Runs ⟨true, false, fun _ => 0⟩ alone false 5 (serve hash conf1 (at_ .postgres 5) [] (admin sys1) client1 (message 81 (queryMsg (text echoA)) ++ [7]))
      st1 (out, n, x') s' ∧ ∀ b ∈ out, b.length ≤ 2147483648 := by
  have hw : Writes echoA [echoName, [97]] := ⟨by simp [echoA, Valid, Piece.Ok]; decide, by simp [echoA], by simp [echoA], rfl⟩
  have hq := query_exact_partial hash [] client1.pg hw.valid (by simp [echoA]) hw.apart hw.noParam
  have hx := serve_runs (env := ⟨true, false, fun _ => 0⟩) (I := alone) (oom := false) (s := st1) (s' := st1) (hash := hash) (c := conf1) (e := at_ .postgres 5) (other := admin sys1) (low := echoName) (fn := .cmdECHO) (Or.inl rfl) (frame_query [7] (by decide)) hq rfl spells_self (by decide)
    (by decide) (p := cmdECHO (at_ .postgres 5) [echoName, [97]]) rfl (.ret _ _) (by decide)
  exact ⟨client1_idle, Or.inl rfl, hw, by decide, _, _, _, _, hx, by decide⟩

end Verif.Pg
