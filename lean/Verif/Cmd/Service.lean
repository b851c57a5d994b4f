import Mathlib.Tactic.Common
import Verif.Cmd.OneReply
import Verif.Cmd.AdminProps
import Verif.Cmd.Scan
import Verif.Cache.Counters
import Verif.Save.Restore

/-!
C84: PING, ECHO, SELECT, DBSIZE and DEBUG POPULATE do what they say.
-/

namespace Verif.Cmd

open Verif.Num Verif.Resp Verif.Map Verif.Shard Verif.Cache

/-- On a RESP connection the client reads exactly the reply `r`, whatever was sent before and whatever follows. -/
def Answers (out : List W) (r : Reply) : Prop :=
  ∃ bytes fuel, (∀ buf, renderAll out buf = buf ++ bytes) ∧ ∀ rest f, fuel ≤ f → decode f (bytes ++ rest) = some (r, rest)

/-- Names of the commands, in lower case. -/
def pingName : Bytes := [112, 105, 110, 103]
/-- See `pingName`. -/
def echoName : Bytes := [101, 99, 104, 111]
/-- See `pingName`. -/
def selectName : Bytes := [115, 101, 108, 101, 99, 116]
/-- See `pingName`. -/
def dbsizeName : Bytes := [100, 98, 115, 105, 122, 101]
/-- See `pingName`. -/
def debugName : Bytes := [100, 101, 98, 117, 103]
/-- See `pingName`. -/
def populateName : Bytes := [112, 111, 112, 117, 108, 97, 116, 101]

/-- A text that denotes `n`. -/
def Says (t : Bytes) (n : Int) : Prop := t.length ≤ 21 ∧ DenotesInt t n ∧ IsI64 n

theorem answers_val {out : List W} (v : Val) (hv : v.Ok) (h : ∀ buf, renderAll out buf = v.write buf) : Answers out v.reply := by
  refine ⟨v.write [], v.size, fun buf => ?_, fun rest f hf => ?_⟩
  · rw [h, write_append v hv]
  · exact decode_write v hv f hf rest

variable {env : Spec.Env} {I : Spec.State → Spec.State → Prop} {oom : Bool} {e : Env} {pw : Bytes} {y : Sys} {s s' : Spec.State} {out : List W} {name : Bytes}

/-- **C84.**  PING is answered by PONG. -/
theorem ping_exact (hs : Spells name pingName) (hp : e.proto = .resp) (h : Executes env I oom e pw (admin y) [name] s out s') :
    Answers out (.simple [80, 79, 78, 71]) ∧ s' = s := by
  rw [executes_iff hs (by decide : (pingName, Fn.cmdPING) ∈ cmds) (p := cmdPING e [name]) rfl] at h
  unfold cmdPING at h
  obtain ⟨rfl, rfl⟩ := runs_ret h
  rw [hp, if_neg (by decide)]
  exact ⟨answers_val (.string [80, 79, 78, 71]) (by unfold Val.Ok; decide) (fun _ => rfl), rfl⟩

/-- **C84.**  PING and ECHO with a text are answered by this text, whatever it is. -/
theorem echo_exact {t : Bytes} (hs : Spells name echoName ∨ Spells name pingName) (hp : e.proto = .resp) (ht : t.length < 2 ^ 64)
    (h : Executes env I oom e pw (admin y) [name, t] s out s') : Answers out (.bulk t) ∧ s' = s := by
  rcases hs with hs | hs
  · rw [executes_iff hs (by decide : (echoName, Fn.cmdECHO) ∈ cmds) (p := cmdECHO e [name, t]) rfl] at h
    unfold cmdECHO at h
    obtain ⟨rfl, rfl⟩ := runs_ret h
    rw [hp, if_neg (by decide)]
    exact ⟨answers_val (.bulk t) ht (fun _ => rfl), rfl⟩
  · rw [executes_iff hs (by decide : (pingName, Fn.cmdPING) ∈ cmds) (p := cmdPING e [name, t]) rfl] at h
    unfold cmdPING at h
    obtain ⟨rfl, rfl⟩ := runs_ret h
    rw [hp, if_neg (by decide)]
    exact ⟨answers_val (.bulk t) ht (fun _ => rfl), rfl⟩

/-- **C84** (`_partial`: *false* for negative numbers, `select_negative`).  There is one database, number 0. -/
theorem select_exact_partial {t : Bytes} {n : Int} (hs : Spells name selectName) (hp : e.proto = .resp) (hn : Says t n) (h0 : 0 ≤ n)
    (h : Executes env I oom e pw (admin y) [name, t] s out s') :
    s' = s ∧ if n = 0 then Answers out (.simple [79, 75]) else ∃ m, Answers out (.error m) := by
  rw [executes_iff hs (by decide : (selectName, Fn.cmdSELECT) ∈ cmds) (p := cmdSELECT e [name, t]) rfl] at h
  unfold cmdSELECT at h
  have hpar : parseI64 t = some n := (parseI64_iff t n).2 (by obtain ⟨h1, h2, h3⟩ := hn; exact Or.inr ⟨h1, h2, h3⟩)
  simp only [hp, ne_eq, not_true_eq_false, if_false, hpar] at h
  obtain ⟨rfl, rfl⟩ := runs_ret h
  refine ⟨rfl, ?_⟩
  split
  · rw [if_neg (by omega)]
    exact answers_val (.string [79, 75]) (by unfold Val.Ok; decide) (fun _ => rfl)
  · rw [if_pos (by omega)]
    exact ⟨_, answers_val (.error (ErrMsg.text .indexOutOfRange)) (by unfold Val.Ok; decide) (fun _ => rfl)⟩

/-- **C84, negation.**  `SELECT -1` is accepted. -/
theorem select_negative : Executes env I oom (at_ .resp 5) pw (admin y) [[83, 69, 76, 69, 67, 84], [45, 49]] s [.str [79, 75]] s := by
  rw [executes_iff (low := selectName) ((spells_iff _ _ (by decide)).2 (by decide)) (by decide : (selectName, Fn.cmdSELECT) ∈ cmds)
    (p := cmdSELECT (at_ .resp 5) [[83, 69, 76, 69, 67, 84], [45, 49]]) rfl]
  have : cmdSELECT (at_ .resp 5) [[83, 69, 76, 69, 67, 84], [45, 49]] = .ret [.str [79, 75]] := by
    unfold cmdSELECT
    simp only [at_, show parseI64 [45, 49] = some (-1) from by decide +kernel]
    rfl
  rw [this]
  exact .ret _ _

/-- **C84.**  DBSIZE is the number of stored keys, each counted once; a key whose time is over counts until it is swept (`dbsize_counts_expired`). -/
theorem dbsize_exact {c : Ctx} (hv : c.Valid) {n : Nat} (hn : 0 < n) {shs : Shards} (hr : Reach c n shs) (hnw : NoWrap n shs) (hy : y.count = count n shs)
    (hb : count n shs < 2 ^ 63) (hs : Spells name dbsizeName) (hp : e.proto = .resp) (h : Executes env I oom e pw (admin y) [name] s out s') :
    s' = s ∧ ∃ L : List Bytes, L.Nodup ∧ (∀ k, k ∈ L ↔ view c n shs k ≠ none) ∧ Answers out (.int L.length) := by
  rw [executes_iff hs (by decide : (dbsizeName, Fn.cmdDBSIZE) ∈ cmds) (p := cmdDBSIZE y e [name]) rfl] at h
  unfold cmdDBSIZE at h
  obtain ⟨rfl, rfl⟩ := runs_ret h
  rw [hp, if_neg (by decide), hy]
  obtain ⟨L, h1, h2, h3⟩ := count_exact hv hn hr hnw
  rw [h3] at hb ⊢
  exact ⟨rfl, L, h1, h2, answers_val (.int L.length) (by unfold Val.Ok IsI64; omega) (fun _ => rfl)⟩

/-- The store made for the `i`-th key of DEBUG POPULATE. -/
def populated (prefix_ : Bytes) (len : Nat) (i : Nat) : Bytes × Bytes := (prefix_ ++ [58] ++ i64toa i, List.replicate len 0)

theorem populate_run {fin : List W} {prefix_ : Bytes} {len : Nat} {now : Int} (l : List Nat) (h : Runs env alone false now (populateLoop y fin prefix_ len none l) s out s') :
    out = fin ∧ ∀ k, (∀ i ∈ l, k ≠ (populated prefix_ len i).1) → s'.dict k = s.dict k := by
  induction l generalizing s with
  | nil =>
    obtain ⟨rfl, rfl⟩ := runs_ret h
    exact ⟨rfl, fun _ _ => rfl⟩
  | cons i l ih =>
    unfold populateLoop at h
    simp only [populateTtl] at h
    obtain ⟨s1, r, s2, h1, h2, h3⟩ := runs_call h
    cases h1
    obtain ⟨cas, hd⟩ := Save.step_plain ⟨rfl, rfl, rfl, rfl, rfl, rfl, rfl⟩ h2
    obtain ⟨i1, i2⟩ := ih h3
    refine ⟨i1, fun k hk => ?_⟩
    rw [i2 k (fun j hj => hk j (by simp [hj])), hd]
    exact Function.update_of_ne (hk i (by simp)) _ _

theorem populate_stores {fin : List W} {prefix_ : Bytes} {len : Nat} {now : Int} (l : List Nat) (h : Runs env alone false now (populateLoop y fin prefix_ len none l) s out s')
    {k : Bytes} (hk : (∃ i ∈ l, k = (populated prefix_ len i).1) ∨ ∃ cas, s.dict k = some ⟨List.replicate len 0, 0, 0, cas⟩) :
    ∃ cas, s'.dict k = some ⟨List.replicate len 0, 0, 0, cas⟩ := by
  induction l generalizing s with
  | nil =>
    obtain ⟨rfl, rfl⟩ := runs_ret h
    rcases hk with ⟨i, hi, _⟩ | hk
    · simp at hi
    · exact hk
  | cons i l ih =>
    unfold populateLoop at h
    simp only [populateTtl] at h
    obtain ⟨s1, r, s2, h1, h2, h3⟩ := runs_call h
    cases h1
    obtain ⟨cas, hd⟩ := Save.step_plain ⟨rfl, rfl, rfl, rfl, rfl, rfl, rfl⟩ h2
    refine ih h3 ?_
    by_cases he : k = (populated prefix_ len i).1
    · right
      refine ⟨cas, ?_⟩
      rw [hd, he]
      simp [populated, Spec.StoreArgs.asked, Spec.normExp]
    · rcases hk with ⟨j, hj, rfl⟩ | ⟨cas', hc⟩
      · left
        rcases List.mem_cons.1 hj with rfl | hj
        · exact absurd rfl he
        · exact ⟨j, hj, rfl⟩
      · right
        refine ⟨cas', ?_⟩
        rw [hd, ← hc]
        exact Function.update_of_ne he _ _

/-- A number in decimal digits. -/
def Dec (t : Bytes) (i : Nat) : Prop := t ≠ [] ∧ (∀ b ∈ t, 48 ≤ b ∧ b ≤ 57) ∧ decimal t = i

theorem i64toa_dec (i : Nat) : Dec (i64toa i) i := by
  have h : i64toa (i : Int) = u64toa i := by
    unfold i64toa
    rw [if_neg (by omega)]
    simp
  rw [h]
  refine ⟨u64toa_ne_nil i, fun b hb => ?_, ?_⟩
  · have := u64toa_digits i b hb
    simpa [isDigit] using this
  · have := natOf_u64toa i
    unfold natOf at this
    split at this
    · exact Option.some.inj this
    · cases this

/-- **C84.**  `DEBUG POPULATE n prefix len` stores `n` keys `prefix:0`, `prefix:1`, ... with `len` bytes each, whatever the number of threads, and touches no other key. -/
theorem populate_exact {sub count prefix_ len : Bytes} {n l : Nat} (hs : Spells name debugName) (hsub : Spells sub populateName) (hp : e.proto = .resp)
    (hy : y.Ok) (ha : y.alloc l = true) (hn : Says count n) (hl : Says len l)
    (h : Executes env alone false e pw (admin y) [name, sub, count, prefix_, len] s out s') :
    Answers out (.simple [79, 75]) ∧ (∀ i, i < n → ∃ t cas, Dec t i ∧ s'.dict (prefix_ ++ [58] ++ t) = some ⟨List.replicate l 0, 0, 0, cas⟩) ∧
      ∀ k, (∀ t i, Dec t i → i < n → k ≠ prefix_ ++ [58] ++ t) → s'.dict k = s.dict k := by
  rw [executes_iff hs (by decide : (debugName, Fn.cmdDEBUG) ∈ cmds) (p := cmdDEBUG y e [name, sub, count, prefix_, len]) rfl] at h
  have h1 : parseI64 count = some (n : Int) := (parseI64_iff _ _).2 (Or.inr hn)
  have h2 : parseI64 len = some (l : Int) := (parseI64_iff _ _).2 (Or.inr hl)
  have h3 : argeq sub [112, 111, 112, 117, 108, 97, 116, 101] = true := by rw [argeq_spells (by decide) hsub]; decide
  unfold cmdDEBUG at h
  simp only [h1, h2, h3, if_true, ha, Bool.true_eq_false, if_false, Int.toNat_natCast] at h
  rw [if_neg (by omega), if_neg (by omega)] at h
  have hm : ∀ i, i ∈ y.order (visited n y.nprocs) ↔ i < n := by
    intro i
    rw [(hy.2.2 _).mem_iff, visited_all n hy.2.1, List.mem_range]
  obtain ⟨h4, h5⟩ := populate_run _ h
  subst h4
  refine ⟨?_, fun i hi => ?_, fun k hk => ?_⟩
  · unfold okPlain
    rw [hp, if_neg (by decide)]
    exact answers_val (.string [79, 75]) (by unfold Val.Ok; decide) (fun _ => rfl)
  · obtain ⟨cas, hc⟩ := populate_stores _ h (Or.inl ⟨i, (hm i).2 hi, rfl⟩)
    exact ⟨_, cas, i64toa_dec i, hc⟩
  · exact h5 k fun i hi => hk _ i (i64toa_dec i) ((hm i).1 hi)

/-- **C84**: SAVE changes nothing, writes to the path asked for (or the one of the server), and says OK exactly if that succeeded. -/
theorem save_exact {kw path : Bytes} (hs : Spells name [115, 97, 118, 101]) (hto : Spells kw [116, 111]) (hp : e.proto = .resp) (hb : y.bgwork = true) (hne : path ≠ [])
    (h : Executes env I oom e pw (admin y) [name, kw, path] s out s') :
    s' = s ∧ if y.saved false path false then Answers out (.simple [79, 75]) else ∃ m, Answers out (.error m) := by
  rw [executes_iff hs (by decide : (([115, 97, 118, 101] : Bytes), Fn.cmdSAVELOAD) ∈ cmds) (p := cmdSAVELOAD y e [name, kw, path]) rfl] at h
  have h1 : argeq name [108, 111, 97, 100] = false := by rw [argeq_spells (by decide) hs]; decide
  have h2 : argeq kw [102, 97, 115, 116] = false := by rw [argeq_spells (by decide) hto]; decide
  have h3 : argeq kw [116, 111] = true := by rw [argeq_spells (by decide) hto]; decide
  unfold cmdSAVELOAD at h
  simp only [List.headD_cons, List.tail_cons, h1, saveLoop, h2, h3] at h
  simp only [Bool.false_eq_true, if_false, false_and, not_false_eq_true, and_self, or_true, if_true, hne, hb, Bool.true_eq_false] at h
  obtain ⟨rfl, rfl⟩ := runs_ret h
  refine ⟨rfl, ?_⟩
  split
  · unfold okReply
    rw [hp, if_neg (by decide), if_neg (by decide)]
    exact answers_val (.string [79, 75]) (by unfold Val.Ok; decide) (fun _ => rfl)
  · exact ⟨_, answers_val (.error (ErrMsg.text .saveFailed)) (by unfold Val.Ok; decide) (fun _ => rfl)⟩

/-! Cases of the theorems. -/

theorem runs_here {y : Sys} {name low : Bytes} {as : List Bytes} {fn : Fn} {out : List W} (s : Spec.State) (hs : name.map lower = low ∧ low.map lower = low)
    (hm : (low, fn) ∈ cmds) (hc : call (at_ .resp 5) [] (admin y) fn (name :: as) ⟨true⟩ = .ret (out, ⟨true⟩)) :
    Executes env I oom (at_ .resp 5) [] (admin y) (name :: as) s out s := by
  refine ⟨⟨true⟩, ?_⟩
  rw [evcommand_known ((spells_iff name low hs.2).2 hs.1) hm, hc]
  exact .ret _ _

/-- `pInG` and `ECHO` with a text of three bytes, two of them control characters. -/
example (s : Spec.State) : (Spells [112, 73, 110, 71] pingName ∧ Executes env I oom (at_ .resp 5) [] (admin sys1) [[112, 73, 110, 71]] s [.str [80, 79, 78, 71]] s) ∧
    Executes env I oom (at_ .resp 5) [] (admin sys1) [[69, 67, 72, 79], [13, 10, 65]] s [.bulk [13, 10, 65]] s := by
  refine ⟨⟨(spells_iff _ _ (by decide)).2 (by decide), ?_⟩, ?_⟩
  · exact runs_here (low := pingName) (fn := .cmdPING) s (by decide) (by decide) rfl
  · exact runs_here (low := echoName) (fn := .cmdECHO) s (by decide) (by decide) rfl

/-- `SELECT 0` and `SELECT 3`. -/
example (s : Spec.State) : Says [48] 0 ∧ Says [51] 3 ∧ Executes env I oom (at_ .resp 5) [] (admin sys1) [[83, 69, 76, 69, 67, 84], [48]] s [.str [79, 75]] s ∧
    Executes env I oom (at_ .resp 5) [] (admin sys1) [[83, 69, 76, 69, 67, 84], [51]] s [.err .indexOutOfRange] s := by
  refine ⟨⟨by decide, ⟨[], [], [48], rfl, by decide, by decide, by decide, Or.inl ⟨Or.inl rfl, by decide⟩⟩, by unfold IsI64; decide⟩,
    ⟨by decide, ⟨[], [], [51], rfl, by decide, by decide, by decide, Or.inl ⟨Or.inl rfl, by decide⟩⟩, by unfold IsI64; decide⟩, ?_, ?_⟩
  · exact runs_here (low := selectName) (fn := .cmdSELECT) s (by decide) (by decide) rfl
  · exact runs_here (low := selectName) (fn := .cmdSELECT) s (by decide) (by decide) rfl

/-- **C84**: DBSIZE counts keys whose time is over: a key stored with a time to live is not visible any more, yet DBSIZE is 1. -/
theorem dbsize_counts_expired (s : Spec.State) : ∃ shs, Reach Example.ctx 1 shs ∧ NoWrap 1 shs ∧ count 1 shs = 1 ∧
    (∀ k en, view Example.ctx 1 shs k = some en → en.alive 200 = false) ∧
    Executes env I oom (at_ .resp 5) [] (admin { sys1 with count := count 1 shs }) [[68, 66, 83, 73, 90, 69]] s [.int 1] s := by
  obtain ⟨⟨shs, rs⟩, hr, h⟩ := Out.of_test (o := runCalls Example.ctx 1 (Example.drift.take 1) (newCache Example.ctx))
    (p := fun x => noWrapB 1 x.1 = true ∧ count 1 x.1 = 1 ∧ (view Example.ctx 1 x.1 [1]).map (·.alive 200) = some false) (by decide +kernel)
  have hre : Reach Example.ctx 1 shs := runCalls_reach .new (fun x hx => Example.drift_ok x (List.mem_of_mem_take hx)) hr
  have hnw := noWrapB_iff.1 h.1
  refine ⟨shs, hre, hnw, h.2.1, ?_, ?_⟩
  · obtain ⟨L, h1, h2, h3⟩ := count_exact (by unfold Ctx.Valid; decide) (by decide) hre hnw
    intro k en hk
    rw [h.2.1] at h3
    obtain ⟨x, rfl⟩ := List.length_eq_one_iff.1 h3.symm
    have hx : k = x := by have := (h2 k).2 (by rw [hk]; simp); simpa using this
    obtain ⟨-, -, h4⟩ := h
    have h5 : [1] = x := by
      have := (h2 [1]).2 (by intro hc; rw [hc] at h4; cases h4)
      simpa using this
    rw [h5, ← hx, hk] at h4
    simpa using h4
  · have := h.2.1
    exact runs_here (low := dbsizeName) (fn := .cmdDBSIZE) s (by decide) (by decide) (by simp only [this]; rfl)

theorem populate_can {y : Sys} {fin : List W} {p : Bytes} {len : Nat} {now : Int} (l : List Nat) (s : Spec.State) :
    ∃ s', Runs env alone oom now (populateLoop y fin p len none l) s fin s' := by
  induction l generalizing s with
  | nil => exact ⟨s, .ret _ _⟩
  | cons i l ih =>
    have h : ∃ r s1, Spec.Step env oom now (.store { key := p ++ [58] ++ i64toa i, val := List.replicate len 0, expires := 0, ttl := 0, cas := 0, flags := 0, keepttl := false, casop := false, nx := false, xx := false, lowmem := false, ask := none }) s r s1 := by
      unfold Spec.Step
      simp only [Bool.false_and, Bool.false_eq_true, if_false, Option.map_none, reduceCtorEq, or_self, Option.isSome_none]
      cases s.dict.get now (p ++ [58] ++ i64toa i) with
      | none => exact ⟨_, _, Or.inr ⟨rfl, Or.inl rfl⟩⟩
      | some it => exact ⟨_, _, Or.inr ⟨rfl, rfl⟩⟩
    obtain ⟨r, s1, h⟩ := h
    obtain ⟨s', h'⟩ := ih s1
    exact ⟨s', .call rfl h h'⟩

/-- `DEBUG POPULATE 2 k 3`: hypotheses of `populate_exact`. -/
example : Spells [68, 69, 66, 85, 71] debugName ∧ Spells [80, 111, 112, 117, 108, 97, 116, 101] populateName ∧ sys1.Ok ∧ sys1.alloc 3 = true ∧ Says [50] 2 ∧ Says [51] 3 ∧
    ∃ s', Executes ⟨true, false, fun _ => 0⟩ alone false (at_ .resp 5) [] (admin sys1) [[68, 69, 66, 85, 71], [80, 111, 112, 117, 108, 97, 116, 101], [50], [107], [51]]
      ⟨fun _ => none, fun _ => 0⟩ [.str [79, 75]] s' := by
  refine ⟨(spells_iff _ _ (by decide)).2 (by decide), (spells_iff _ _ (by decide)).2 (by decide), sys1_ok, rfl,
    ⟨by decide, ⟨[], [], [50], rfl, by decide, by decide, by decide, Or.inl ⟨Or.inl rfl, by decide⟩⟩, by unfold IsI64; decide⟩,
    ⟨by decide, ⟨[], [], [51], rfl, by decide, by decide, by decide, Or.inl ⟨Or.inl rfl, by decide⟩⟩, by unfold IsI64; decide⟩, ?_⟩
  have h3 : cmdDEBUG sys1 (at_ .resp 5) [[68, 69, 66, 85, 71], [80, 111, 112, 117, 108, 97, 116, 101], [50], [107], [51]] =
      populateLoop sys1 [.str [79, 75]] [107] 3 none [0, 1] := by rfl
  have h4 : ∃ s', Runs ⟨true, false, fun _ => 0⟩ alone false 5 (populateLoop sys1 [.str [79, 75]] [107] 3 none [0, 1]) ⟨fun _ => none, fun _ => 0⟩ [.str [79, 75]] s' := by
    exact populate_can _ _
  obtain ⟨s', h4⟩ := h4
  refine ⟨s', (executes_iff (low := debugName) ((spells_iff _ _ (by decide)).2 (by decide)) (by decide : (debugName, Fn.cmdDEBUG) ∈ cmds) (p := cmdDEBUG sys1 (at_ .resp 5) [[68, 69, 66, 85, 71], [80, 111, 112, 117, 108, 97, 116, 101], [50], [107], [51]]) rfl).2 ?_⟩
  rw [h3]
  exact h4

/-- `SAVE TO f`. -/
example (s : Spec.State) : Executes env I oom (at_ .resp 5) [] (admin sys1) [[83, 65, 86, 69], [116, 79], [102]] s [.str [79, 75]] s :=
  runs_here (low := [115, 97, 118, 101]) (fn := .cmdSAVELOAD) s (by decide) (by decide) rfl

end Verif.Cmd
