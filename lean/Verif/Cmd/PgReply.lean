import Mathlib.Tactic.Common
import Verif.Cmd.Safe

/-!
What the commands write to a Postgres connection (for C78).
-/

namespace Verif.Cmd

open Verif.Num Verif.Resp Verif.Map Verif.Shard Verif.Cache

/-- The calls write one answer: an error; or a tag; or a table, whose rows have as many columns as announced, and a tag.  Names and tags, which
are sent as C strings, hold no NUL. -/
inductive PgAnswer : List W → Prop
  | err (m : ErrMsg) : PgAnswer [.err m]
  | tag {t : Bytes} (h : 0 ∉ t) : PgAnswer (pgEnd t)
  | table {names : List Bytes} {rows : List (List Bytes)} {t : Bytes} (h : 0 ∉ t) (hn : ∀ n ∈ names, 0 ∉ n)
      (hl : names.length ≤ 4) (hr : ∀ r ∈ rows, r.length = names.length) :
      PgAnswer (.pg (.desc names) :: (rows.map (fun r => .pg (.row r)) ++ pgEnd t))
  | spawn {o : List W} (h : PgAnswer o) (t : Task) : PgAnswer (o ++ [.spawn t])

/-- What an answer to a request on a Postgres connection is like. -/
def PgOr (y : Sys) (args : List Bytes) (out : List W) : Prop :=
  PgAnswer out ∨ (Spells (args.headD []) [113, 117, 105, 116] ∧ out = [.close]) ∨ (IsPopulate args ∧ (out = [.undefined] ∨ out = [.failed])) ∨
    (IsWildScan y args ∧ out = [.undefined])

theorem nul_u64toa (n : Nat) : 0 ∉ u64toa n := by
  intro h
  have := u64toa_digits n 0 h
  revert this; decide

theorem nul_i64toa (n : Int) : 0 ∉ i64toa n := by
  unfold i64toa
  split
  · split
    · decide
    · intro h
      rcases List.mem_cons.1 h with h | h
      · revert h; decide
      · exact nul_u64toa _ h
  · exact nul_u64toa _

section
variable {y : Sys} {e : Env} {args : List Bytes} {env : Spec.Env} {oom : Bool}

theorem PgAnswer.row {name row t : Bytes} (h : 0 ∉ t) (hn : 0 ∉ name) : PgAnswer (pgRow name row t) :=
  PgAnswer.table (names := [name]) (rows := [[row]]) h (by simpa using hn) (by simp) (by simp)

theorem valueCol_ok : 0 ∉ valueCol := by decide

theorem pg_okReply (hp : e.proto = .postgres) {t : Bytes} (h : 0 ∉ t) : PgAnswer (okReply e t) := by
  unfold okReply; rw [if_pos hp]; exact .tag h

theorem pg_okPlain (hp : e.proto = .postgres) {t : Bytes} (h : 0 ∉ t) : PgAnswer (okPlain e t) := by
  unfold okPlain; rw [if_pos hp]; exact .tag h

theorem pg_execSET (hp : e.proto = .postgres) {name key val : Bytes} (hn : 0 ∉ name) {o : SetOpts} :
    Always env oom e.now PgAnswer (execSET e name key val o) := by
  unfold execSET
  refine .call fun s r s' h => .ret ?_
  obtain ⟨h1, h2⟩ := store_shown h
  have ht : ∀ b : UInt8, b ≠ 0 → 0 ∉ name ++ [32, b] := by
    intro b hb
    simp [hn, hb.symm]
  unfold setReply
  split
  · rename_i hm
    rw [h1 hm]
    exact .err _
  · split
    · rcases h2 with h2 | ⟨x, h2⟩
      · simp only [h2, if_true, hp]
        exact PgAnswer.table (rows := []) (ht 48 (by decide)) (by simpa using valueCol_ok) (by simp) (by simp)
      · rw [h2, if_neg (by simp)]
        simp only [setEntry, hp, if_true, List.flatMap_cons, List.flatMap_nil, List.append_nil]
        exact .row (ht 49 (by decide)) valueCol_ok
    · simp only [hp]
      split
      · have := ht 49 (by decide)
        rw [List.append_assoc]; exact .tag this
      · have := ht 48 (by decide)
        rw [List.append_assoc]; exact .tag this

theorem pg_SET (hp : e.proto = .postgres) (hc : Clocks e) : Always env oom e.now PgAnswer (cmdSET e args) := by
  unfold cmdSET
  split
  · split
    · exact .ret (.err _)
    · rename_i h
      obtain ⟨o', h, _⟩ := setLoop_some hc _ (by decide) h
      cases h
    · rename_i h
      obtain ⟨o', h, h0⟩ := setLoop_some hc _ (by decide) h
      cases h
      rw [if_neg (by omega)]
      split
      · exact .ret (.err _)
      · split
        · exact .ret (.err _)
        · exact pg_execSET hp (by decide)
  · exact .ret (.err _)

theorem pg_SETEX (hp : e.proto = .postgres) (hc : Clocks e) : Always env oom e.now PgAnswer (cmdSETEX e args) := by
  unfold cmdSETEX
  split
  · split
    · exact .ret (.err _)
    · rename_i x hx
      split
      · exact .ret (.err _)
      · obtain ⟨y, hy, hy2, _⟩ := mulClamp_some (parseI64_range hx) second_i64
        obtain ⟨z, hz, _⟩ := addClamp_some hc.1.2 hy2
        rw [hy]
        simp only [Option.bind_some, hz]
        exact pg_execSET hp (by decide)
  · exact .ret (.err _)

theorem pg_GET (hp : e.proto = .postgres) : Always env oom e.now PgAnswer (cmdGET e args) := by
  unfold cmdGET
  split
  · refine .call fun s r s' h => ?_
    rw [if_pos hp]
    refine .ret ?_
    rcases (load_step h).2 with ⟨_, rfl⟩ | ⟨it, _, rfl⟩
    · exact PgAnswer.table (rows := []) (by decide) (by simpa using valueCol_ok) (by simp) (by simp)
    · simp only [getEntry, hp, reduceCtorEq, if_false, List.flatMap_cons, List.flatMap_nil, List.append_nil]
      exact PgAnswer.table (rows := [[it.value]]) (by decide) (by simpa using valueCol_ok) (by simp) (by simp)
  · exact .ret (.err _)

theorem pg_mgetLoop (hp : e.proto = .postgres) {kind : Kind} (hk : kind ≠ .get) (ks : List Bytes) (out : List (List Bytes)) (n : Nat)
    (ho : ∀ r ∈ out, r.length = (mgetCols kind).length) :
    Always env oom e.now PgAnswer (mgetLoop e kind ks (.pg (.desc (mgetCols kind)) :: out.map (fun r => .pg (.row r))) n) := by
  have hm : ∀ n ∈ mgetCols kind, 0 ∉ n := by
    unfold mgetCols
    split <;> decide
  have hm2 : (mgetCols kind).length ≤ 4 := by unfold mgetCols; split <;> decide
  induction ks generalizing out n with
  | nil =>
    unfold mgetLoop
    refine .ret ?_
    rw [if_neg (by simp [hp]), if_pos hp, List.cons_append]
    refine PgAnswer.table (rows := out) ?_ hm hm2 ho
    have := nul_u64toa n
    simp [this]
  | cons k ks ih =>
    unfold mgetLoop
    refine .call fun s r s' h => ?_
    rcases (load_step h).2 with ⟨_, rfl⟩ | ⟨it, _, rfl⟩
    · simp only [if_true, hp, reduceCtorEq, if_false, List.append_nil]
      exact ih out n ho
    · simp only [reduceCtorEq, if_false, List.flatMap_cons, List.flatMap_nil, List.append_nil]
      have : ∃ row : List Bytes, row.length = (mgetCols kind).length ∧ getEntry e kind (k, it) = [.pg (.row row)] := by
        unfold getEntry
        rw [hp]
        cases kind with
        | get => exact absurd rfl hk
        | mget => exact ⟨[k, it.value], rfl, rfl⟩
        | mgets => exact ⟨[k, u64toa it.flags, u64toa it.cas, it.value], rfl, rfl⟩
      obtain ⟨row, hr, hg⟩ := this
      rw [hg, List.cons_append, show out.map (fun r => W.pg (.row r)) ++ [.pg (.row row)] = (out ++ [row]).map (fun r => W.pg (.row r)) from by simp]
      refine ih _ _ ?_
      intro r hr'
      rcases List.mem_append.1 hr' with hr' | hr'
      · exact ho r hr'
      · rw [List.mem_singleton.1 hr', hr]

theorem pg_MGET (hp : e.proto = .postgres) : Always env oom e.now PgAnswer (cmdMGET e args) := by
  unfold cmdMGET
  split
  · rename_i name key ks
    simp only [hp, reduceCtorEq, if_false, if_true]
    refine pg_mgetLoop hp ?_ _ [] 0 (by simp)
    split <;> decide
  · exact .ret (.err _)

theorem pg_counted {t : Bytes} (h : 0 ∉ t) {n : Int} : 0 ∉ t ++ i64toa n := by
  have h3 := nul_i64toa n
  simp [h, h3]

theorem pg_ucounted {t : Bytes} (h : 0 ∉ t) {n : Nat} : 0 ∉ t ++ u64toa n := by
  have h3 := nul_u64toa n
  simp [h, h3]

theorem pg_delLoop (hp : e.proto = .postgres) (ks : List Bytes) (d : Nat) :
    Always env oom e.now PgAnswer (delLoop e ks d) := by
  induction ks generalizing d with
  | nil =>
    unfold delLoop
    rw [hp]
    have := pg_counted (t := [68, 69, 76, 32]) (by decide) (n := d)
    exact .ret (.tag this)
  | cons k ks ih =>
    unfold delLoop
    exact .call fun _ _ _ _ => ih _

theorem pg_DEL (hp : e.proto = .postgres) : Always env oom e.now PgAnswer (cmdDEL e args) := by
  unfold cmdDEL
  split
  · exact pg_delLoop hp _ _
  · exact .ret (.err _)

theorem pg_existsLoop (hp : e.proto = .postgres) (ks : List Bytes) (d : Nat) : Always env oom e.now PgAnswer (existsLoop e ks d) := by
  induction ks generalizing d with
  | nil =>
    unfold existsLoop
    rw [if_pos hp]
    exact .ret (.row (by decide) (by decide))
  | cons k ks ih => unfold existsLoop; exact .call fun _ _ _ _ => ih _

theorem pg_EXISTS (hp : e.proto = .postgres) : Always env oom e.now PgAnswer (cmdEXISTS e args) := by
  unfold cmdEXISTS
  split
  · exact pg_existsLoop hp _ _
  · exact .ret (.err _)

theorem pg_touchLoop (hp : e.proto = .postgres) (ks : List Bytes) (d : Nat) :
    Always env oom e.now PgAnswer (touchLoop e ks d) := by
  induction ks generalizing d with
  | nil =>
    unfold touchLoop
    rw [if_neg (by simp [hp]), if_pos hp]
    have := pg_counted (t := [84, 79, 85, 67, 72, 32]) (by decide) (n := d)
    exact .ret (.tag this)
  | cons k ks ih =>
    unfold touchLoop
    exact .call fun _ _ _ _ => ih _

theorem pg_TOUCH (hp : e.proto = .postgres) : Always env oom e.now PgAnswer (cmdTOUCH e args) := by
  unfold cmdTOUCH
  split
  · exact pg_touchLoop hp _ _
  · exact .ret (.err _)

theorem pg_TTL (hp : e.proto = .postgres) : Always env oom e.now PgAnswer (cmdTTL e args) := by
  unfold cmdTTL
  split
  · refine .call fun s r s' h => ?_
    simp only [if_pos hp]
    refine .ret ?_
    rcases (load_step h).2 with ⟨_, rfl⟩ | ⟨it, _, rfl⟩
    · simp only [if_true]
      split
      · exact PgAnswer.table (rows := []) (by decide) (by decide) (by simp) (by simp)
      · exact PgAnswer.table (rows := []) (by decide) (by decide) (by simp) (by simp)
    · simp only [reduceCtorEq, if_false, List.map_cons, List.map_nil]
      split
      · exact PgAnswer.table (rows := [[_]]) (by decide) (by decide) (by simp) (by simp)
      · exact PgAnswer.table (rows := [[_]]) (by decide) (by decide) (by simp) (by simp)
  · exact .ret (.err _)

theorem pg_EXPIRE (hp : e.proto = .postgres) (hc : Clocks e) : Always env oom e.now PgAnswer (cmdEXPIRE e args) := by
  unfold cmdEXPIRE
  split
  · split
    · exact .ret (.err _)
    · rename_i x hx
      obtain ⟨y, hy, hy2, _⟩ := mulClamp_some (parseI64_range hx) second_i64
      obtain ⟨z, hz, _⟩ := addClamp_some hc.1.2 hy2
      rw [hy]
      simp only [Option.bind_some, hz]
      refine .call fun s r s' h => ?_
      rw [if_neg (by simp [hp]), if_pos hp]
      split <;> exact .ret (.tag (by decide))
  · exact .ret (.err _)

theorem pg_execIncr (hp : e.proto = .postgres) {cmd key : Bytes} (hn : 0 ∉ cmd) {delta : Int} {decr uns : Bool} :
    Always env oom e.now PgAnswer (execIncr e cmd key delta decr uns) := by
  unfold execIncr
  refine .call fun s r s' h => ?_
  simp only []
  split
  · rw [if_neg (by simp [hp])]; exact .ret (.err _)
  · rename_i v expires flags cas hr
    generalize (if decr = true then v - delta else v + delta) = exact_
    refine .ite (fun h => absurd h.2 (by simp [hp])) fun _ => ?_
    refine .ite (fun h => .ret (.err _)) fun _ => ?_
    refine .call fun s r s' h => ?_
    rcases plain_step h with ⟨_, rfl, _⟩ | ⟨hs, _⟩
    · exact .ret (.err _)
    · rw [if_neg (by rcases hs with hs | hs <;> simp [hs]), if_pos hs, if_neg (by simp [hp]), if_pos hp]
      exact .ret (.row hn valueCol_ok)

theorem pg_INCRDECRBY (hp : e.proto = .postgres) {decr : Bool} : Always env oom e.now PgAnswer (cmdINCRDECRBY e args decr) := by
  unfold cmdINCRDECRBY
  split
  · simp only []
    split
    · rw [if_neg (by simp [hp])]; exact .ret (.err _)
    · exact pg_execIncr hp (by split <;> decide)
  · exact .ret (.err _)

theorem pg_INCRDECR (hp : e.proto = .postgres) {decr : Bool} : Always env oom e.now PgAnswer (cmdINCRDECR e args decr) := by
  unfold cmdINCRDECR
  split
  · exact pg_execIncr hp (by split <;> decide)
  · exact .ret (.err _)

theorem pg_APPEND (hp : e.proto = .postgres) : Always env oom e.now PgAnswer (cmdAPPEND e args) := by
  unfold cmdAPPEND
  split
  · simp only []
    refine .call fun s r s' h => ?_
    rename_i name k v
    have key : ∀ {len : Nat} {s s' : Spec.State} {r : Spec.Reply} {k v : Bytes} {x : Int} {c f : Nat}, Spec.Step env oom e.now (plain k v x c f) s r s' →
        Always env oom e.now PgAnswer (if r.status = .nomem then .ret [.err .outOfMemory]
          else if r.status = .inserted ∨ r.status = .replaced then
            .ret (if e.proto = .memcache then [.raw [83, 84, 79, 82, 69, 68, 13, 10]]
              else if e.proto = .postgres then
                pgEnd ((if argeq name [112, 114, 101, 112, 101, 110, 100] then [80, 82, 69, 80, 69, 78, 68, 32] else [65, 80, 80, 69, 78, 68, 32]) ++ u64toa len)
              else [.int len])
          else .ret [.failed]) := by
      intro len s s' r k v x c f h
      rcases plain_step h with ⟨_, rfl, _⟩ | ⟨hs, _⟩
      · exact .ret (.err _)
      · rw [if_neg (by rcases hs with hs | hs <;> simp [hs]), if_pos hs, if_neg (by simp [hp]), if_pos hp]
        have h2 := pg_ucounted (t := if argeq name [112, 114, 101, 112, 101, 110, 100] then [80, 82, 69, 80, 69, 78, 68, 32] else [65, 80, 80, 69, 78, 68, 32])
          (by split <;> decide) (n := len)
        exact .ret (.tag h2)
    refine .ite (fun _ => ?_) fun _ => ?_
    · refine .ite (fun hp' => absurd hp' (by simp [hp])) fun _ => ?_
      exact .call fun s r s' h => key h
    · refine .ite (fun _ => .ret (.err _)) fun _ => ?_
      exact .call fun s r s' h => key h
  · exact .ret (.err _)

theorem flushName_ok : 0 ∉ flushName args := by
  unfold flushName
  repeat' split
  all_goals decide

theorem pg_flushTag {t : Bytes} (ht : 0 ∉ t) : 0 ∉ flushName args ++ t := by
  have h1 := flushName_ok (args := args)
  simp [h1, ht]

theorem pg_FLUSHALL (hp : e.proto = .postgres) : Always env oom e.now PgAnswer (cmdFLUSHALL y e args) := by
  unfold cmdFLUSHALL
  split
  · exact .ret (.err _)
  · split
    · exact .ret ((pg_okReply hp (pg_flushTag (by decide))).spawn _)
    · split
      · exact .ret (.err _)
      · unfold flushWork
        exact always_calls (.ret (pg_okReply hp (pg_flushTag (by decide))))

theorem pg_SAVELOAD (hp : e.proto = .postgres) : Always env oom e.now PgAnswer (cmdSAVELOAD y e args) := by
  unfold cmdSAVELOAD
  simp only []
  split
  · exact .ret (.err _)
  · split
    · exact .ret (.err _)
    · split
      · exact .ret (.err _)
      · split
        · refine always_calls (.ret ?_)
          split
          · exact pg_okReply hp (by decide)
          · exact .err _
        · refine .ret ?_
          split
          · exact pg_okReply hp (by decide)
          · exact .err _

theorem pg_SWEEP (hp : e.proto = .postgres) : Always env oom e.now PgAnswer (cmdSWEEP y e args) := by
  unfold cmdSWEEP
  split
  · exact .ret (.err _)
  · split
    · exact .ret (.err _)
    · split
      · exact .ret ((pg_okPlain hp (by decide)).spawn _)
      · split
        · exact .ret (.err _)
        · unfold sweepWork
          exact always_calls (.ret (pg_okPlain hp (by decide)))

theorem pg_PURGE (hp : e.proto = .postgres) : Always env oom e.now PgAnswer (cmdPURGE y e args) := by
  unfold cmdPURGE
  split
  · exact .ret (.err _)
  · split
    · exact .ret ((pg_okPlain hp (by decide)).spawn _)
    · exact .ret (.err _)
  · refine .ret ?_
    split
    · exact pg_okPlain hp (by decide)
    · exact .err _

theorem pg_KEYS (hp : e.proto = .postgres) : Always env oom e.now PgAnswer (cmdKEYS y e args) := by
  unfold cmdKEYS
  split
  · split
    · exact .ret (.err _)
    · refine always_keysWork fun keys => .ret ?_
      have h1 := pg_ucounted (t := [75, 69, 89, 83, 32]) (by decide) (n := keys.length)
      have := PgAnswer.table (names := [[107, 101, 121]]) (rows := keys.map fun k => [k]) h1 (by decide) (by decide) (by simp)
      rw [List.map_map] at this
      exact this
  · exact .ret (.err _)

theorem pg_DBSIZE (hp : e.proto = .postgres) : Always env oom e.now PgAnswer (cmdDBSIZE y e args) := by
  unfold cmdDBSIZE
  split
  · rw [if_pos hp]; exact .ret (.row (by decide) (by decide))
  · exact .ret (.err _)

theorem pg_SELECT (hp : e.proto = .postgres) : Always env oom e.now PgAnswer (cmdSELECT e args) := by
  unfold cmdSELECT
  rw [if_pos (by simp [hp])]
  exact .ret (.err _)

theorem pg_ECHO (hp : e.proto = .postgres) : Always env oom e.now PgAnswer (cmdECHO e args) := by
  unfold cmdECHO
  split
  · rw [if_pos hp]; exact .ret (.row (by decide) (by decide))
  · exact .ret (.err _)

theorem pg_PING (hp : e.proto = .postgres) : Always env oom e.now PgAnswer (cmdPING e args) := by
  unfold cmdPING
  split
  · rw [if_pos hp]; exact .ret (.row (by decide) (by decide))
  · rw [if_pos hp]; exact .ret (.row (by decide) (by decide))
  · exact .ret (.err _)

theorem pg_MONITOR (hp : e.proto = .postgres) : Always env oom e.now PgAnswer (cmdMONITOR y e args) := by
  unfold cmdMONITOR
  rw [if_pos (by simp [hp])]
  exact .ret (.err _)

theorem pg_STATS (hp : e.proto = .postgres) : Always env oom e.now PgAnswer (cmdSTATS y e args) := by
  unfold cmdSTATS
  split
  · rw [if_neg (by simp [hp]), if_pos hp]
    refine .ret ?_
    have h1 := pg_ucounted (t := [83, 84, 65, 84, 83, 32]) (by decide) (n := y.stats.length)
    have := PgAnswer.table (names := [[115, 116, 97, 116], valueCol]) (rows := y.stats.map fun x => [x.1, x.2]) h1 (by decide) (by decide)
      (by intro r hr; obtain ⟨x, _, rfl⟩ := List.mem_map.1 hr; rfl)
    rw [List.map_map] at this
    exact this
  · exact .ret (.err _)

theorem pg_VERSION (hp : e.proto = .postgres) : Always env oom e.now PgAnswer (cmdVERSION y e) := by
  unfold cmdVERSION
  rw [if_neg (by simp [hp]), if_pos hp]
  exact .ret (.row (by decide) (by decide))

theorem pg_SCAN (hp : e.proto = .postgres) : Always env oom e.now (PgOr y args) (cmdSCAN y e args) := by
  unfold cmdSCAN
  split
  · split
    · exact .ret (Or.inl (.err _))
    · rename_i hc
      split
      · exact .ret (Or.inl (.err _))
      · split
        · rename_i hs
          exact .ret (Or.inr (Or.inr (Or.inr ⟨⟨_, _, _, _, _, _, rfl, hc, hs⟩, rfl⟩)))
        · rename_i r _
          refine .ret (Or.inl ?_)
          simp only [if_pos hp]
          have h1 := pg_ucounted (t := [83, 67, 65, 78, 32]) (by decide) (n := r.1.length)
          have := PgAnswer.table (names := [[107, 101, 121], [99, 117, 114, 115, 111, 114]]) (rows := r.1.map fun k => [k, u64toa r.2]) h1 (by decide) (by decide) (by simp)
          rw [List.map_map] at this
          exact this
  · exact .ret (Or.inl (.err _))

theorem pg_AUTH (hp : e.proto = .postgres) {pw : Bytes} {st : ConnSt} : PgAnswer (cmdAUTH e pw args st).1 := by
  unfold cmdAUTH
  split
  · rw [if_neg (by simp [hp])]; exact .err _
  · split
    · exact .err _
    · split
      · exact .err _
      · split
        · split
          · exact .err _
          · exact .tag (by decide)
        · exact .err _

theorem pg_populateLoop {prefix_ : Bytes} {fin : List W} (hfin : PgAnswer fin) {len : Nat} {range : Option (Int × Int)} (is : List Nat) :
    Always env oom e.now (fun out => PgAnswer out ∨ out = [.undefined]) (populateLoop y fin prefix_ len range is) := by
  induction is with
  | nil => unfold populateLoop; exact .ret (Or.inl hfin)
  | cons i is ih =>
    unfold populateLoop
    split
    · exact .ret (Or.inr rfl)
    · exact .call fun _ _ _ _ => ih

theorem pg_DEBUG (hp : e.proto = .postgres) {name : Bytes} {as : List Bytes} (hn : Spells name [100, 101, 98, 117, 103]) :
    Always env oom e.now (PgOr y (name :: as)) (cmdDEBUG y e (name :: as)) := by
  unfold cmdDEBUG
  split
  · rename_i _ name' sub as' hl
    injection hl with hl1 hl2
    subst hl1 hl2
    refine .ite (fun hs => ?_) fun _ => ?_
    · have hpop : IsPopulate (name :: sub :: as') := ⟨name, sub, as', rfl, hn, (spells_iff _ _ (by decide)).2 ((argeq_iff _ _).1 hs)⟩
      simp only []
      have hgo : ∀ (count prefix_ len : Bytes) (range : Option (Int × Int)), Always env oom e.now (PgOr y (name :: sub :: as'))
          (match parseI64 count with
            | none => .ret [.err .syntaxError]
            | some n =>
              if n < 0 then .ret [.err .syntaxError]
              else
                match parseI64 len with
                | none => .ret [.err .syntaxError]
                | some l =>
                  if l < 0 then .ret [.err .syntaxError]
                  else if y.alloc l = false then .ret [.failed]
                  else populateLoop y (okPlain e ([68, 69, 66, 85, 71, 32, 80, 79, 80, 85, 76, 65, 84, 69, 32] ++ i64toa n)) prefix_ l.toNat range
                    (y.order (visited n.toNat y.nprocs))) := by
        intro count prefix_ len range
        split
        · exact .ret (Or.inl (.err _))
        · rename_i n hn
          split
          · exact .ret (Or.inl (.err _))
          · split
            · exact .ret (Or.inl (.err _))
            · split
              · exact .ret (Or.inl (.err _))
              · split
                · exact .ret (Or.inr (Or.inr (Or.inl ⟨hpop, Or.inr rfl⟩)))
                · have h1 : 0 ∉ ([68, 69, 66, 85, 71, 32, 80, 79, 80, 85, 76, 65, 84, 69, 32] : Bytes) ++ i64toa n := by
                    have := nul_i64toa n
                    simp [this]
                  refine (pg_populateLoop (pg_okPlain hp h1) _).mono fun out ho => ?_
                  rcases ho with ho | ho
                  · exact Or.inl ho
                  · exact Or.inr (Or.inr (Or.inl ⟨hpop, Or.inl ho⟩))
      split
      · exact hgo _ _ _ _
      · exact hgo _ _ _ _
      · exact .ret (Or.inl (.err _))
    · refine .ite (fun _ => .ret (Or.inl ?_)) fun _ => .ret (Or.inl (.err _))
      split
      · exact .row (by decide) (by decide)
      · exact .err _
  · exact .ret (Or.inl (.err _))

theorem pg_call (hp : e.proto = .postgres) (hc : Clocks e) {pw : Bytes} {fn : Fn} {st : ConnSt} (hne : args ≠ [])
    (hd : fn = .cmdDEBUG → Spells (args.headD []) [100, 101, 98, 117, 103]) (hq : fn = .cmdQUIT → Spells (args.headD []) [113, 117, 105, 116]) :
    Always env oom e.now (fun r => PgOr y args r.1) (call e pw (admin y) fn args st) := by
  have keep : ∀ {p : Prog (List W)}, Always env oom e.now PgAnswer p →
      Always env oom e.now (fun r : List W × ConnSt => PgOr y args r.1) (p.map (·, st)) := fun h => .map (h.mono fun a ha => Or.inl ha)
  unfold call
  cases fn
  case cmdAUTH => exact .ret (Or.inl (pg_AUTH hp))
  case cmdDEBUG =>
    refine .map ?_
    cases args with
    | nil => exact absurd rfl hne
    | cons name as => exact (pg_DEBUG hp (hd rfl)).mono fun a ha => ha
  case cmdSCAN => exact .map (pg_SCAN hp)
  case cmdQUIT =>
    refine .map ?_
    simp only [admin, cmdQUIT]
    rw [if_neg (by simp [hp])]
    exact .ret (Or.inr (Or.inl ⟨hq rfl, rfl⟩))
  all_goals refine keep ?_
  · exact pg_SET hp hc
  · exact pg_GET hp
  · exact pg_DEL hp
  · exact pg_MGET hp
  · exact pg_TTL hp
  · exact pg_EXPIRE hp hc
  · exact pg_SETEX hp hc
  · exact pg_DBSIZE hp
  · exact pg_ECHO hp
  · exact pg_EXISTS hp
  · exact pg_FLUSHALL hp
  · exact pg_MONITOR hp
  · exact pg_PURGE hp
  · exact pg_SWEEP hp
  · exact pg_KEYS hp
  · exact pg_SELECT hp
  · exact pg_PING hp
  · exact pg_TOUCH hp
  · exact pg_INCRDECRBY hp
  · exact pg_INCRDECRBY hp
  · exact pg_INCRDECR hp
  · exact pg_INCRDECR hp
  · exact pg_APPEND hp
  · exact pg_APPEND hp
  · exact pg_SAVELOAD hp
  · exact pg_STATS hp
  · exact pg_VERSION hp

/-- Every request on a Postgres connection gets one answer, closes it (QUIT), or is one of those that may crash the server. -/
theorem pg_evcommand (hp : e.proto = .postgres) (hc : Clocks e) {pw : Bytes} {st : ConnSt} (hne : args ≠ []) :
    Always env oom e.now (fun r => PgOr y args r.1) (evcommand e pw (admin y) args st) := by
  unfold evcommand
  simp only []
  split
  · exact .ret (Or.inl (pg_AUTH hp))
  · rcases command_lookup (args.headD []) with ⟨x, h1, h2, h3⟩ | ⟨h1, _⟩
    · rw [h1]
      obtain ⟨x1, x2⟩ := x
      refine pg_call hp hc hne (fun hd => ?_) fun hd => ?_
      · simp only at hd
        subst hd
        have hall : ∀ x ∈ cmds, x.2 = .cmdDEBUG → x.1 = [100, 101, 98, 117, 103] := by decide +kernel
        rw [← hall _ h2 rfl]
        exact h3
      · simp only at hd
        subst hd
        have hall : ∀ x ∈ cmds, x.2 = .cmdQUIT → x.1 = [113, 117, 105, 116] := by decide +kernel
        rw [← hall _ h2 rfl]
        exact h3
    · rw [h1]
      exact .ret (Or.inl (.err _))

end

end Verif.Cmd
