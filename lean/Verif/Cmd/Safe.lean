import Mathlib.Tactic.Common
import Verif.Cmd.Admin
import Verif.Cmd.Link

/-!
C69: no request makes the server fail an assertion, give up or divide by zero.  (Also the shapes of replies for C70.)
-/

namespace Verif.Cmd

open Verif.Num Verif.Resp Verif.Map Verif.Shard Verif.Cache

/-- Every run of a program ends with a result of a kind. -/
def Always (env : Spec.Env) (oom : Bool) (now : Int) {α : Type} (P : α → Prop) (p : Prog α) : Prop :=
  ∀ I s a s', Runs env I oom now p s a s' → P a

section
variable {env : Spec.Env} {oom : Bool} {now : Int} {α β : Type} {P : α → Prop}

theorem Always.ret {a : α} (h : P a) : Always env oom now P (.ret a) := by
  intro I s b s' hr
  rw [(runs_ret hr).1]; exact h

theorem Always.call {c : Spec.Call} {k : Spec.Reply → Prog α}
    (h : ∀ s r s', Spec.Step env oom now c s r s' → Always env oom now P (k r)) : Always env oom now P (.call c k) := by
  intro I s b s' hr
  obtain ⟨s1, r, s2, _, h2, h3⟩ := runs_call hr
  exact h s1 r s2 h2 I s2 b s' h3

theorem Always.mono {Q : α → Prop} {p : Prog α} (h : Always env oom now P p) (hpq : ∀ a, P a → Q a) : Always env oom now Q p :=
  fun I s a s' hr => hpq a (h I s a s' hr)

theorem Always.map {f : β → α} {p : Prog β} (h : Always env oom now (fun b => P (f b)) p) : Always env oom now P (p.map f) := by
  intro I s a s' hr
  obtain ⟨b, h1, rfl⟩ := runs_map hr
  exact h I s b s' h1

theorem Always.ite {q : Prop} [Decidable q] {p p' : Prog α} (h : q → Always env oom now P p) (h' : ¬ q → Always env oom now P p') :
    Always env oom now P (if q then p else p') := by
  split
  · exact h ‹_›
  · exact h' ‹_›

theorem always_calls {cs : List Spec.Call} {p : Prog α} (h : Always env oom now P p) : Always env oom now P (calls cs p) := by
  induction cs with
  | nil => exact h
  | cons c cs ih => exact .call fun _ _ _ _ => ih

end

/-- Nothing undefined happened and no assertion failed. -/
def Safe (out : List W) : Prop := W.undefined ∉ out ∧ W.failed ∉ out

instance (out : List W) : Decidable (Safe out) := inferInstanceAs (Decidable (_ ∧ _))

theorem parseI64_range {t : Bytes} {x : Int} (h : parseI64 t = some x) : IsI64 x := by
  unfold parseI64 at h
  split at h
  · cases h
  · simp only [] at h
    split at h
    · split at h
      · injection h with h; subst h; exact zero_i64
      · cases h
    · split at h
      · cases h
      · have key : ∀ v : Int, (if v < i64min ∨ v > i64max then none else some v) = some x → IsI64 x := by
          intro v h
          split at h
          · cases h
          · rename_i hr
            injection h with h
            subst h
            unfold IsI64
            unfold i64min i64max at hr
            omega
        split at h <;> exact key _ h

theorem mulClamp_some {x y : Int} (hx : IsI64 x) (hy : IsI64 y) : ∃ z, mulClamp x y = some z ∧ IsI64 z ∧ (0 ≤ x → 0 ≤ y → 0 ≤ z) := by
  refine ⟨_, mulClamp_exact x y hx hy, (saturate_spec _).1, fun h1 h2 => ?_⟩
  have := Int.mul_nonneg h1 h2
  unfold saturate
  split
  · unfold i64min at *; omega
  · split
    · omega
    · exact this

theorem addClamp_some {x y : Int} (hx : IsI64 x) (hy : IsI64 y) : ∃ z, addClamp x y = some z ∧ IsI64 z ∧ (0 ≤ x → 0 ≤ y → 0 ≤ z) := by
  refine ⟨_, addClamp_exact x y hx hy, (saturate_spec _).1, fun h1 h2 => ?_⟩
  have : 0 ≤ x + y := by omega
  unfold saturate
  split
  · unfold i64min at *; omega
  · split
    · omega
    · exact this

theorem second_i64 : IsI64 second := by unfold IsI64 second; omega
theorem millisecond_i64 : IsI64 millisecond := by unfold IsI64 millisecond; omega

/-- Clocks as the code reads them: 64 bits, not negative. -/
def Clocks (e : Env) : Prop := (0 ≤ e.now ∧ IsI64 e.now) ∧ 0 ≤ e.unix ∧ IsI64 e.unix

theorem expirySeconds_some {e : Env} (hc : Clocks e) {x : Int} (hx : IsI64 x) (h0 : 0 ≤ x) : ∃ z, expirySeconds e x = some z ∧ 0 ≤ z := by
  unfold expirySeconds
  obtain ⟨⟨h1, h2⟩, h3, h4⟩ := hc
  split
  · obtain ⟨z, hz, _, hz2⟩ := addClamp_some h2 (y := if x > e.unix then x - e.unix else 0)
      (by split
          · unfold IsI64 at *; omega
          · exact zero_i64)
    exact ⟨z, hz, hz2 h1 (by split <;> omega)⟩
  · obtain ⟨z, hz, _, hz2⟩ := addClamp_some h2 hx
    exact ⟨z, hz, hz2 h1 h0⟩

theorem parseEx_some {e : Env} (hc : Clocks e) {kind : ExKind} {t : Bytes} {r : Option Int} (h : parseEx e kind t = .ok r) :
    ∃ z, r = some z ∧ 0 ≤ z := by
  unfold parseEx at h
  split at h
  · cases h
  · rename_i x hx
    have hx := parseI64_range hx
    split at h
    · split at h
      · injection h with h
        obtain ⟨z, hz, hz2⟩ := expirySeconds_some hc zero_i64 (le_refl 0)
        exact ⟨z, by rw [← h, hz], hz2⟩
      · cases h
    · have key : ∀ u : Int, IsI64 u → 0 ≤ u → ∃ z, ((mulClamp x u).bind fun y => expirySeconds e y) = some z ∧ 0 ≤ z := by
        intro u hu hu0
        obtain ⟨y, hy, hy2, hy3⟩ := mulClamp_some hx hu
        obtain ⟨z, hz, hz2⟩ := expirySeconds_some hc hy2 (hy3 (by omega) hu0)
        exact ⟨z, by rw [hy]; exact hz, hz2⟩
      have key2 : ∀ u : Int, IsI64 u → 0 ≤ u → ∃ z, mulClamp x u = some z ∧ 0 ≤ z := by
        intro u hu hu0
        obtain ⟨y, hy, _, hy3⟩ := mulClamp_some hx hu
        exact ⟨y, hy, hy3 (by omega) hu0⟩
      split at h <;> injection h with h <;> subst h
      · exact key _ second_i64 (by unfold second; omega)
      · exact key _ millisecond_i64 (by unfold millisecond; omega)
      · exact key2 _ second_i64 (by unfold second; omega)
      · exact key2 _ millisecond_i64 (by unfold millisecond; omega)

theorem setLoop_some {e : Env} (hc : Clocks e) (as : List Bytes) {o : SetOpts} (ho : 0 ≤ o.expires) {r : Option SetOpts}
    (h : setLoop e as o = .ok r) : ∃ o', r = some o' ∧ 0 ≤ o'.expires := by
  induction as using List.twoStepInduction generalizing o with
  | nil =>
    unfold setLoop at h
    injection h with h
    exact ⟨o, h.symm, ho⟩
  | singleton a =>
    unfold setLoop at h
    simp only [] at h
    repeat' split at h
    all_goals first | (cases h; done) | skip
    all_goals
      unfold setLoop at h
      injection h with h
      exact ⟨_, h.symm, ho⟩
  | cons_cons a x as ih1 ih2 =>
    unfold setLoop at h
    extract_lets ex at h
    have hex : ∀ kind, ex kind = .ok r → ∃ o', r = some o' ∧ 0 ≤ o'.expires := by
      intro kind h
      simp only [ex] at h
      split at h
      · cases h
      · rename_i hp
        obtain ⟨z, hz, _⟩ := parseEx_some hc hp
        cases hz
      · rename_i t hp
        obtain ⟨z, hz, hz2⟩ := parseEx_some hc hp
        injection hz with hz
        subst hz
        exact ih1 hz2 h
    by_cases c0 : argeq a [101, 120] = true
    · rw [if_pos c0] at h
      exact hex _ h
    rw [if_neg c0] at h
    by_cases c1 : argeq a [112, 120] = true
    · rw [if_pos c1] at h
      exact hex _ h
    rw [if_neg c1] at h
    by_cases c2 : argeq a [101, 120, 97, 116] = true
    · rw [if_pos c2] at h
      exact hex _ h
    rw [if_neg c2] at h
    by_cases c3 : argeq a [112, 120, 97, 116] = true
    · rw [if_pos c3] at h
      exact hex _ h
    rw [if_neg c3] at h
    by_cases c4 : argeq a [110, 120] = true
    · rw [if_pos c4] at h
      exact ih2 x (by exact ho) h
    rw [if_neg c4] at h
    by_cases c5 : argeq a [120, 120] = true
    · rw [if_pos c5] at h
      exact ih2 x (by exact ho) h
    rw [if_neg c5] at h
    by_cases c6 : argeq a [103, 101, 116] = true
    · rw [if_pos c6] at h
      exact ih2 x (by exact ho) h
    rw [if_neg c6] at h
    by_cases c7 : argeq a [107, 101, 101, 112, 116, 116, 108] = true
    · rw [if_pos c7] at h
      exact ih2 x (by exact ho) h
    rw [if_neg c7] at h
    by_cases c8 : argeq a [102, 108, 97, 103, 115] = true
    · rw [if_pos c8] at h
      simp only [] at h
      cases hp : parseU64 x with
      | none => rw [hp] at h; cases h
      | some y => rw [hp] at h; exact ih1 (by exact ho) h
    rw [if_neg c8] at h
    by_cases c9 : argeq a [99, 97, 115] = true
    · rw [if_pos c9] at h
      simp only [] at h
      cases hp : parseU64 x with
      | none => rw [hp] at h; cases h
      | some y => rw [hp] at h; exact ih1 (by exact ho) h
    rw [if_neg c9] at h
    cases h

/-! ### Shapes of replies -/

/-- Calls that write one whole RESP value. -/
def W.leaf : W → Bool
  | .err _ | .str _ | .null | .int _ | .uint _ | .bulk _ => true
  | _ => false

/-- Calls that write nothing. -/
def W.quiet : W → Bool
  | .close | .monitor | .spawn _ => true
  | _ => false

/-- The calls write one value: a plain one, or an array head and as many values. -/
inductive One : List W → Prop
  | leaf {w : W} (h : w.leaf = true) : One [w]
  | arr (outs : List (List W)) (h : ∀ o ∈ outs, One o) : One (.arr outs.length :: outs.flatten)
  | quiet {o : List W} {w : W} (h : One o) (hw : w.quiet = true) : One (o ++ [w])

/-- Errors whose text repeats bytes of the request. -/
def ErrMsg.quotes : ErrMsg → Option Bytes
  | .unknownCommand t | .unknownType t => some t
  | _ => none

/-- DEBUG POPULATE with a range of times. -/
def IsPopulate (args : List Bytes) : Prop := ∃ name sub as, args = name :: sub :: as ∧ Spells name [100, 101, 98, 117, 103] ∧ Spells sub [112, 111, 112, 117, 108, 97, 116, 101]

/-- SCAN with a cursor for which the scan leaves the memory of the cache. -/
def IsWildScan (y : Sys) (args : List Bytes) : Prop :=
  ∃ name cursor as c p n, args = name :: cursor :: as ∧ parseU64 cursor = some c ∧ y.scan c p n = none

/-- What every reply is like. -/
structure Good (y : Sys) (e : Env) (args : List Bytes) (out : List W) : Prop where
  safe : Safe out
  one : e.proto = .resp → y.bgwork = true → One out
  errs : ∀ m, W.err m ∈ out → ∀ t, m.quotes = some t → t ∈ args
  strs : ∀ t, W.str t ∈ out → t = [79, 75] ∨ t = [80, 79, 78, 71] ∨ t = y.version

section
variable {y : Sys} {e : Env} {args : List Bytes} {env : Spec.Env} {oom : Bool}

theorem Good.err {m : ErrMsg} (h : m.quotes = none) : Good y e args [.err m] :=
  ⟨by simp [Safe], fun _ _ => .leaf rfl, by simp +contextual [h], by simp⟩

theorem Good.quote {m : ErrMsg} (h : ∀ t, m.quotes = some t → t ∈ args) : Good y e args [.err m] :=
  ⟨by simp [Safe], fun _ _ => .leaf rfl, by simpa using h, by simp⟩

theorem Good.ok : Good y e args [.str [79, 75]] :=
  ⟨by simp [Safe], fun _ _ => .leaf rfl, by simp, by simp⟩

theorem Good.null : Good y e args [.null] := ⟨by simp [Safe], fun _ _ => .leaf rfl, by simp, by simp⟩

theorem Good.int {i : Int} : Good y e args [.int i] := ⟨by simp [Safe], fun _ _ => .leaf rfl, by simp, by simp⟩

theorem Good.uint {i : Nat} : Good y e args [.uint i] := ⟨by simp [Safe], fun _ _ => .leaf rfl, by simp, by simp⟩

theorem Good.bulk {t : Bytes} : Good y e args [.bulk t] := ⟨by simp [Safe], fun _ _ => .leaf rfl, by simp, by simp⟩

theorem Good.raws {out : List W} (hp : e.proto ≠ .resp) (h : ∀ w ∈ out, (∃ b, w = .raw b) ∨ (∃ c b, w = .http c b) ∨ ∃ m, w = .pg m) : Good y e args out := by
  refine ⟨⟨fun hu => ?_, fun hu => ?_⟩, fun h' => absurd h' hp, fun m hu => ?_, fun m hu => ?_⟩ <;>
  · rcases h _ hu with ⟨b, hb⟩ | ⟨c, b, hb⟩ | ⟨m, hb⟩ <;> cases hb

theorem good_pgEnd {tag : Bytes} (hp : e.proto = .postgres) : Good y e args (pgEnd tag) := .raws (by simp [hp]) (by simp [pgEnd])

theorem good_pgRow {name row tag : Bytes} (hp : e.proto = .postgres) : Good y e args (pgRow name row tag) :=
  .raws (by simp [hp]) (by simp [pgRow, pgEnd])

theorem good_pgTable {names : List Bytes} {rows : List (List Bytes)} {tag : Bytes} (hp : e.proto = .postgres) :
    Good y e args (.pg (.desc names) :: ((rows.map fun r => .pg (.row r)) ++ pgEnd tag)) := by
  refine .raws (by simp [hp]) ?_
  intro w hw
  simp only [pgEnd, List.mem_cons, List.mem_append, List.mem_map, List.not_mem_nil, or_false] at hw
  rcases hw with rfl | ⟨r, _, rfl⟩ | rfl | rfl <;> simp

theorem good_okReply {tag : Bytes} : Good y e args (okReply e tag) := by
  unfold okReply
  split
  · exact good_pgEnd ‹_›
  · split
    · exact .raws (by simp [*]) (by simp)
    · exact .ok

theorem good_okPlain {tag : Bytes} : Good y e args (okPlain e tag) := by
  unfold okPlain
  split
  · exact good_pgEnd ‹_›
  · exact .ok

/-- One reply after the other. -/
theorem Good.arr {outs : List (List W)} (h : ∀ o ∈ outs, Good y e args o) : Good y e args (.arr outs.length :: outs.flatten) := by
  refine ⟨?_, fun h1 h2 => .arr outs fun o ho => (h o ho).one h1 h2, ?_, ?_⟩
  · constructor
    · simp only [List.mem_cons, reduceCtorEq, List.mem_flatten, false_or, not_exists, not_and]
      exact fun o ho hu => (h o ho).safe.1 hu
    · simp only [List.mem_cons, reduceCtorEq, List.mem_flatten, false_or, not_exists, not_and]
      exact fun o ho hu => (h o ho).safe.2 hu
  · intro m hm
    simp only [List.mem_cons, reduceCtorEq, List.mem_flatten, false_or] at hm
    obtain ⟨o, ho, hm⟩ := hm
    exact (h o ho).errs m hm
  · intro m hm
    simp only [List.mem_cons, reduceCtorEq, List.mem_flatten, false_or] at hm
    obtain ⟨o, ho, hm⟩ := hm
    exact (h o ho).strs m hm

theorem Good.quiet {o : List W} {w : W} (h : Good y e args o) (hw : w.quiet = true) : Good y e args (o ++ [w]) := by
  have hne : ∀ w', W.quiet w' = false → w' ∈ o ++ [w] → w' ∈ o := by
    intro w' h' hm
    rcases List.mem_append.1 hm with hm | hm
    · exact hm
    · rw [List.mem_singleton.1 hm, hw] at h'; cases h'
  exact ⟨⟨fun hu => h.safe.1 (hne _ rfl hu), fun hu => h.safe.2 (hne _ rfl hu)⟩, fun h1 h2 => .quiet (h.one h1 h2) hw,
    fun m hm => h.errs m (hne _ rfl hm), fun m hm => h.strs m (hne _ rfl hm)⟩

/-! ### The commands -/

theorem store_shown {now : Int} {a : Spec.StoreArgs} {s s' : Spec.State} {r : Spec.Reply} (h : Spec.Step env oom now (.store a) s r s') :
    (r.status = .nomem → r.shown = []) ∧ (r.shown = [] ∨ ∃ x, r.shown = [x]) := by
  have hs : ∀ it : Spec.Item, (if a.ask.isSome then [(a.key, it)] else []) = [] ∨ ∃ x, (if a.ask.isSome then [(a.key, it)] else []) = [x] := by
    intro it
    by_cases hk : a.ask.isSome
    · rw [if_pos hk]; exact Or.inr ⟨_, rfl⟩
    · rw [if_neg hk]; exact Or.inl rfl
  unfold Spec.Step at h
  simp only [] at h
  by_cases h1 : (a.lowmem && env.noevict) = true
  · rw [if_pos h1] at h; rw [h.1]; simp
  · rw [if_neg h1] at h
    rcases h with h | h
    · rw [h.2.1]; simp
    · cases hg : s.dict.get now a.key with
      | some it =>
        rw [hg] at h
        simp only [] at h
        by_cases h2 : (if a.casop = true then env.usecas = false ∨ a.cas ≠ it.cas else a.nx = true)
        · rw [if_pos h2] at h; rw [h.1]; simp
        · rw [if_neg h2] at h
          by_cases h3 : a.ask.map (· it) = some false
          · rw [if_pos h3] at h; rw [h.1]; exact ⟨by simp, hs it⟩
          · rw [if_neg h3] at h; rw [h.1]; exact ⟨by simp, hs it⟩
      | none =>
        rw [hg] at h
        simp only [] at h
        by_cases h2 : a.xx = true ∨ a.casop = true
        · rw [if_pos h2] at h; rw [h.1]; simp
        · rw [if_neg h2] at h; rw [h.1]; simp

theorem good_execSET {name key val : Bytes} {o : SetOpts} : Always env oom e.now (Good y e args) (execSET e name key val o) := by
  unfold execSET
  refine .call fun s r s' h => .ret ?_
  obtain ⟨h1, h2⟩ := store_shown h
  unfold setReply
  split
  · rename_i hn
    rw [h1 hn]
    exact .err rfl
  · split
    · rcases h2 with h2 | ⟨x, h2⟩
      · rw [h2, if_pos rfl]
        split
        · exact good_pgTable (rows := []) ‹_›
        · exact .null
      · rw [h2, if_neg (by simp)]
        simp only [List.flatMap_cons, List.flatMap_nil, List.append_nil]
        unfold setEntry
        split
        · exact good_pgRow ‹_›
        · exact .bulk
    · simp only []
      split
      · rename_i hp
        repeat' split
        all_goals exact .raws (by simp [hp]) (by simp)
      · rename_i hp
        split
        all_goals exact .raws (by simp [hp]) (by simp)
      · exact good_pgEnd ‹_›
      · split
        · exact .ok
        · exact .null

theorem setLoop_err {e : Env} (as : List Bytes) {o : SetOpts} {m : ErrMsg} (h : setLoop e as o = .error m) : m.quotes = none := by
  have hpe : ∀ {kind t m}, parseEx e kind t = .error m → m.quotes = none := by
    intro kind t m h
    unfold parseEx at h
    split at h
    · cases h; rfl
    · split at h
      · split at h
        · cases h
        · cases h; rfl
      · split at h <;> cases h
  induction as using List.twoStepInduction generalizing o with
  | nil => unfold setLoop at h; cases h
  | singleton a =>
    unfold setLoop at h
    simp only [] at h
    repeat' split at h
    all_goals first | (cases h; rfl) | (unfold setLoop at h; cases h)
  | cons_cons a x as ih1 ih2 =>
    unfold setLoop at h
    extract_lets ex at h
    have hex : ∀ kind, ex kind = .error m → m.quotes = none := by
      intro kind h
      simp only [ex] at h
      split at h
      · rename_i hp
        cases h
        exact hpe hp
      · cases h
      · exact ih1 h
    by_cases c0 : argeq a [101, 120] = true
    · rw [if_pos c0] at h
      exact hex _ h
    rw [if_neg c0] at h
    by_cases c1 : argeq a [112, 120] = true
    · rw [if_pos c1] at h
      exact hex _ h
    rw [if_neg c1] at h
    by_cases c2 : argeq a [101, 120, 97, 116] = true
    · rw [if_pos c2] at h
      exact hex _ h
    rw [if_neg c2] at h
    by_cases c3 : argeq a [112, 120, 97, 116] = true
    · rw [if_pos c3] at h
      exact hex _ h
    rw [if_neg c3] at h
    by_cases c4 : argeq a [110, 120] = true
    · rw [if_pos c4] at h
      exact ih2 x h
    rw [if_neg c4] at h
    by_cases c5 : argeq a [120, 120] = true
    · rw [if_pos c5] at h
      exact ih2 x h
    rw [if_neg c5] at h
    by_cases c6 : argeq a [103, 101, 116] = true
    · rw [if_pos c6] at h
      exact ih2 x h
    rw [if_neg c6] at h
    by_cases c7 : argeq a [107, 101, 101, 112, 116, 116, 108] = true
    · rw [if_pos c7] at h
      exact ih2 x h
    rw [if_neg c7] at h
    by_cases c8 : argeq a [102, 108, 97, 103, 115] = true
    · rw [if_pos c8] at h
      simp only [] at h
      cases hp : parseU64 x with
      | none => rw [hp] at h; cases h; rfl
      | some y => rw [hp] at h; exact ih1 h
    rw [if_neg c8] at h
    by_cases c9 : argeq a [99, 97, 115] = true
    · rw [if_pos c9] at h
      simp only [] at h
      cases hp : parseU64 x with
      | none => rw [hp] at h; cases h; rfl
      | some y => rw [hp] at h; exact ih1 h
    rw [if_neg c9] at h
    cases h
    rfl

theorem good_SET (hc : Clocks e) : Always env oom e.now (Good y e args) (cmdSET e args) := by
  unfold cmdSET
  split
  · split
    · rename_i h; exact .ret (.err (setLoop_err _ h))
    · rename_i h
      obtain ⟨o', h, _⟩ := setLoop_some hc _ (by decide) h
      cases h
    · rename_i h
      obtain ⟨o', h, h0⟩ := setLoop_some hc _ (by decide) h
      cases h
      rw [if_neg (by omega)]
      split
      · exact .ret (.err rfl)
      · split
        · exact .ret (.err rfl)
        · exact good_execSET
  · exact .ret (.err rfl)

theorem good_SETEX (hc : Clocks e) : Always env oom e.now (Good y e args) (cmdSETEX e args) := by
  unfold cmdSETEX
  split
  · split
    · exact .ret (.err rfl)
    · rename_i x hx
      split
      · exact .ret (.err rfl)
      · obtain ⟨y, hy, hy2, _⟩ := mulClamp_some (parseI64_range hx) second_i64
        obtain ⟨z, hz, _⟩ := addClamp_some hc.1.2 hy2
        rw [hy]
        simp only [Option.bind_some, hz]
        exact good_execSET
  · exact .ret (.err rfl)

theorem good_GET : Always env oom e.now (Good y e args) (cmdGET e args) := by
  unfold cmdGET
  split
  · refine .call fun s r s' h => ?_
    rcases (load_step h).2 with ⟨_, rfl⟩ | ⟨it, _, rfl⟩
    · simp only [if_true]
      split
      · exact .ret (good_pgTable (rows := []) ‹_›)
      · refine .ret ?_
        split
        · exact .raws (by simp [*]) (by simp)
        · exact .null
    · split
      · rename_i hp
        refine .ret ?_
        simp only [getEntry, hp, reduceCtorEq, if_false, List.flatMap_cons, List.flatMap_nil, List.append_nil]
        exact good_pgTable (rows := [[it.value]]) hp
      · rename_i hp
        rw [if_neg (by simp)]
        refine .ret ?_
        simp only [List.flatMap_cons, List.flatMap_nil, List.append_nil]
        unfold getEntry
        split
        · exact .raws (by simp [*]) (by simp)
        · exact .raws (by simp [*]) (by simp)
        · exact absurd ‹_› hp
        · simp only [reduceCtorEq, if_false, List.nil_append]; exact .bulk
  · exact .ret (.err rfl)

theorem good_getEntry {kind : Kind} {x : Bytes × Spec.Item} : Good y e args (getEntry e kind x) := by
  unfold getEntry
  split
  · exact .raws (by simp [*]) (by simp)
  · exact .raws (by simp [*]) (by simp)
  · split <;> exact .raws (by simp [*]) (by simp)
  · by_cases hk : kind = .mgets
    · rw [if_pos hk]
      have := Good.arr (y := y) (e := e) (args := args) (outs := [[.uint x.2.flags], [.uint x.2.cas], [.bulk x.2.value]])
        (by
          intro o ho
          simp only [List.mem_cons, List.not_mem_nil, or_false] at ho
          rcases ho with rfl | rfl | rfl
          · exact .uint
          · exact .uint
          · exact .bulk)
      simpa using this
    · rw [if_neg hk]; exact .bulk

theorem mgetLoop_resp {kind : Kind} (hp : e.proto = .resp) (ks : List Bytes) (out : List W) (n : Nat) :
    Always env oom e.now (fun r => ∃ outs : List (List W), outs.length = ks.length ∧ r = out ++ outs.flatten ∧ ∀ o ∈ outs, Good y e args o)
      (mgetLoop e kind ks out n) := by
  induction ks generalizing out n with
  | nil =>
    unfold mgetLoop
    exact .ret ⟨[], rfl, by simp [hp], by simp⟩
  | cons k ks ih =>
    unfold mgetLoop
    refine .call fun s r s' h => ?_
    refine (ih _ _).mono ?_
    rintro a ⟨outs, h1, h2, h3⟩
    rcases (load_step h).2 with ⟨_, rfl⟩ | ⟨it, _, rfl⟩
    · refine ⟨[.null] :: outs, by simp [h1], by rw [h2]; simp [hp], ?_⟩
      simp only [List.mem_cons, forall_eq_or_imp]
      exact ⟨.null, h3⟩
    · refine ⟨getEntry e kind (k, it) :: outs, by simp [h1], by rw [h2]; simp, ?_⟩
      simp only [List.mem_cons, forall_eq_or_imp]
      exact ⟨good_getEntry, h3⟩

theorem Good.app {o o' : List W} (hp : e.proto ≠ .resp) (h : Good y e args o) (h' : Good y e args o') : Good y e args (o ++ o') := by
  refine ⟨⟨?_, ?_⟩, fun h1 => absurd h1 hp, ?_, ?_⟩
  · rw [List.mem_append]; rintro (hu | hu)
    · exact h.safe.1 hu
    · exact h'.safe.1 hu
  · rw [List.mem_append]; rintro (hu | hu)
    · exact h.safe.2 hu
    · exact h'.safe.2 hu
  · intro m hm
    rcases List.mem_append.1 hm with hu | hu
    · exact h.errs m hu
    · exact h'.errs m hu
  · intro m hm
    rcases List.mem_append.1 hm with hu | hu
    · exact h.strs m hu
    · exact h'.strs m hu

theorem mgetLoop_other {kind : Kind} (hp : e.proto ≠ .resp) (ks : List Bytes) {out : List W} {n : Nat} (ho : Good y e args out) :
    Always env oom e.now (Good y e args) (mgetLoop e kind ks out n) := by
  induction ks generalizing out n with
  | nil =>
    unfold mgetLoop
    refine .ret (ho.app hp ?_)
    split
    · exact .raws hp (by simp)
    · split
      · exact good_pgEnd ‹_›
      · exact .raws hp (by simp)
  | cons k ks ih =>
    unfold mgetLoop
    refine .call fun s r s' h => ih (ho.app hp ?_)
    rcases (load_step h).2 with ⟨_, rfl⟩ | ⟨it, _, rfl⟩
    · rw [if_pos rfl, if_neg hp]; exact .raws hp (by simp)
    · rw [if_neg (by simp)]
      simp only [List.flatMap_cons, List.flatMap_nil, List.append_nil]
      exact good_getEntry

theorem good_MGET : Always env oom e.now (Good y e args) (cmdMGET e args) := by
  unfold cmdMGET
  split
  · rename_i name key ks
    by_cases hp : e.proto = .resp
    · refine (mgetLoop_resp (y := y) (args := name :: key :: ks) hp _ _ _).mono ?_
      rintro a ⟨outs, h1, rfl, h3⟩
      rw [if_pos hp, ← h1]
      exact Good.arr h3
    · refine mgetLoop_other hp _ ?_
      rw [if_neg hp]
      split <;> exact .raws hp (by simp)
  · exact .ret (.err rfl)

theorem good_delLoop (ks : List Bytes) (d : Nat) : Always env oom e.now (Good y e args) (delLoop e ks d) := by
  induction ks generalizing d with
  | nil =>
    unfold delLoop
    split
    · exact .ret (.raws (by simp [*]) (by simp))
    · split
      · exact .ret (.raws (by simp [*]) (by simp))
      · exact .ret (.raws (by simp [*]) (by simp))
    · exact .ret (good_pgEnd ‹_›)
    · exact .ret .int
  | cons k ks ih =>
    unfold delLoop
    exact .call fun _ _ _ _ => ih _

theorem good_DEL : Always env oom e.now (Good y e args) (cmdDEL e args) := by
  unfold cmdDEL
  split
  · exact good_delLoop _ _
  · exact .ret (.err rfl)

theorem good_existsLoop (ks : List Bytes) (d : Nat) : Always env oom e.now (Good y e args) (existsLoop e ks d) := by
  induction ks generalizing d with
  | nil =>
    unfold existsLoop
    refine .ret ?_
    split
    · exact good_pgRow ‹_›
    · exact .int
  | cons k ks ih => unfold existsLoop; exact .call fun _ _ _ _ => ih _

theorem good_EXISTS : Always env oom e.now (Good y e args) (cmdEXISTS e args) := by
  unfold cmdEXISTS
  split
  · exact good_existsLoop _ _
  · exact .ret (.err rfl)

theorem good_touchLoop (ks : List Bytes) (d : Nat) : Always env oom e.now (Good y e args) (touchLoop e ks d) := by
  induction ks generalizing d with
  | nil =>
    unfold touchLoop
    split
    · exact .ret (.raws (by simp [*]) (by simp))
    · refine .ret ?_
      split
      · exact good_pgEnd ‹_›
      · exact .int
  | cons k ks ih => unfold touchLoop; exact .call fun _ _ _ _ => ih _

theorem good_TOUCH : Always env oom e.now (Good y e args) (cmdTOUCH e args) := by
  unfold cmdTOUCH
  split
  · exact good_touchLoop _ _
  · exact .ret (.err rfl)

theorem good_TTL : Always env oom e.now (Good y e args) (cmdTTL e args) := by
  unfold cmdTTL
  split
  · refine .call fun s r s' h => ?_
    rcases (load_step h).2 with ⟨_, rfl⟩ | ⟨it, _, rfl⟩
    · simp only [if_true]
      split
      · exact .ret (good_pgTable (rows := []) ‹_›)
      · refine .ret ?_
        split
        · exact .int
        · exact .raws (by simp [*]) (by simp)
    · simp only [reduceCtorEq, if_false]
      split
      · exact .ret (good_pgTable (rows := [_]) ‹_›)
      · exact .ret .int
  · exact .ret (.err rfl)

theorem good_EXPIRE (hc : Clocks e) : Always env oom e.now (Good y e args) (cmdEXPIRE e args) := by
  unfold cmdEXPIRE
  split
  · split
    · exact .ret (.err rfl)
    · rename_i x hx
      obtain ⟨y, hy, hy2, _⟩ := mulClamp_some (parseI64_range hx) second_i64
      obtain ⟨z, hz, _⟩ := addClamp_some hc.1.2 hy2
      rw [hy]
      simp only [Option.bind_some, hz]
      refine .call fun s r s' h => ?_
      split
      · exact .ret (.raws (by simp [*]) (by simp))
      · split
        · exact .ret (good_pgEnd ‹_›)
        · exact .ret .int
  · exact .ret (.err rfl)

theorem good_execIncr {cmd key : Bytes} {delta : Int} {decr uns : Bool} : Always env oom e.now (Good y e args) (execIncr e cmd key delta decr uns) := by
  unfold execIncr
  refine .call fun s r s' h => ?_
  simp only []
  split
  · split
    · exact .ret (.raws (by simp [*]) (by simp))
    · exact .ret (.err rfl)
  · rename_i v expires flags cas hr
    generalize (if decr = true then v - delta else v + delta) = exact_
    refine .ite (fun h => .ret (.raws (by simp [h.2]) (by simp))) fun _ => ?_
    refine .ite (fun h => .ret (.err rfl)) fun _ => ?_
    refine .call fun s r s' h => ?_
    rcases plain_step h with ⟨_, rfl, _⟩ | ⟨hs, _⟩
    · exact .ret (.err rfl)
    · rw [if_neg (by rcases hs with hs | hs <;> simp [hs]), if_pos hs]
      split
      · exact .ret (.raws (by simp [*]) (by simp))
      · split
        · exact .ret (good_pgRow ‹_›)
        · split
          · exact .ret .uint
          · exact .ret .int

theorem good_INCRDECRBY {decr : Bool} : Always env oom e.now (Good y e args) (cmdINCRDECRBY e args decr) := by
  unfold cmdINCRDECRBY
  split
  · simp only []
    split
    · split
      · exact .ret (.raws (by simp [*]) (by simp))
      · exact .ret (.err rfl)
    · exact good_execIncr
  · exact .ret (.err rfl)

theorem good_INCRDECR {decr : Bool} : Always env oom e.now (Good y e args) (cmdINCRDECR e args decr) := by
  unfold cmdINCRDECR
  split
  · exact good_execIncr
  · exact .ret (.err rfl)

theorem good_APPEND {as : List Bytes} : Always env oom e.now (Good y e args) (cmdAPPEND e as) := by
  unfold cmdAPPEND
  split
  · simp only []
    refine .call fun s r s' h => ?_
    rename_i name _ _
    have key : ∀ {len : Nat} {s s' : Spec.State} {r : Spec.Reply} {k v : Bytes} {x : Int} {c f : Nat}, Spec.Step env oom e.now (plain k v x c f) s r s' →
        Always env oom e.now (Good y e args) (if r.status = .nomem then .ret [.err .outOfMemory]
          else if r.status = .inserted ∨ r.status = .replaced then
            .ret (if e.proto = .memcache then [.raw [83, 84, 79, 82, 69, 68, 13, 10]]
              else if e.proto = .postgres then
                pgEnd ((if argeq name [112, 114, 101, 112, 101, 110, 100] then [80, 82, 69, 80, 69, 78, 68, 32] else [65, 80, 80, 69, 78, 68, 32]) ++ u64toa len)
              else [.int len])
          else .ret [.failed]) := by
      intro len s s' r k v x c f h
      rcases plain_step h with ⟨_, rfl, _⟩ | ⟨hs, _⟩
      · exact .ret (.err rfl)
      · rw [if_neg (by rcases hs with hs | hs <;> simp [hs]), if_pos hs]
        refine .ret ?_
        split
        · exact .raws (by simp [*]) (by simp)
        · split
          · exact good_pgEnd ‹_›
          · exact .int
    refine .ite (fun _ => ?_) fun _ => ?_
    · refine .ite (fun hp => .ret (.raws (by simp [hp]) (by simp))) fun _ => ?_
      exact .call fun s r s' h => key h
    · refine .ite (fun _ => .ret (.err rfl)) fun _ => ?_
      exact .call fun s r s' h => key h
  · exact .ret (.err rfl)

theorem flushLoop_err (as : List Bytes) {o : Bool × Bool × Int} {m : ErrMsg} (h : flushLoop as o = .error m) : m.quotes = none := by
  induction as using List.twoStepInduction generalizing o with
  | nil => unfold flushLoop at h; cases h
  | singleton a =>
    obtain ⟨x, y, z⟩ := o
    unfold flushLoop at h
    simp only [] at h
    repeat' split at h
    all_goals first | (cases h; rfl) | (unfold flushLoop at h; cases h)
  | cons_cons a x as ih1 ih2 =>
    obtain ⟨o1, o2, o3⟩ := o
    unfold flushLoop at h
    simp only [] at h
    repeat' split at h
    all_goals first | (cases h; rfl) | exact ih1 h | exact ih2 x h

theorem good_FLUSHALL : Always env oom e.now (Good y e args) (cmdFLUSHALL y e args) := by
  unfold cmdFLUSHALL
  split
  · rename_i h; exact .ret (.err (flushLoop_err _ h))
  · split
    · exact .ret (good_okReply.quiet rfl)
    · split
      · exact .ret (.err rfl)
      · unfold flushWork
        exact always_calls (.ret good_okReply)

theorem saveLoop_err {load : Bool} (as : List Bytes) {o : Bool × Bytes} {m : ErrMsg} (h : saveLoop load as o = .error m) : m.quotes = none := by
  induction as using List.twoStepInduction generalizing o with
  | nil => unfold saveLoop at h; cases h
  | singleton a =>
    obtain ⟨x, y⟩ := o
    unfold saveLoop at h
    simp only [] at h
    repeat' split at h
    all_goals first | (cases h; rfl) | (unfold saveLoop at h; cases h)
  | cons_cons a x as ih1 ih2 =>
    obtain ⟨o1, o2⟩ := o
    unfold saveLoop at h
    simp only [] at h
    repeat' split at h
    all_goals first | (cases h; rfl) | exact ih1 h | exact ih2 x h

theorem good_SAVELOAD : Always env oom e.now (Good y e args) (cmdSAVELOAD y e args) := by
  unfold cmdSAVELOAD
  simp only []
  split
  · rename_i h; exact .ret (.err (saveLoop_err _ h))
  · split
    · exact .ret (.err rfl)
    · split
      · exact .ret (.err rfl)
      · split
        · refine always_calls (.ret ?_)
          split
          · exact good_okReply
          · exact .err rfl
        · refine .ret ?_
          split
          · exact good_okReply
          · exact .err rfl

theorem sweepLoop_err (as : List Bytes) {o : Bool × Bool} {m : ErrMsg} (h : sweepLoop as o = .error m) : m.quotes = none := by
  induction as generalizing o with
  | nil => unfold sweepLoop at h; cases h
  | cons a as ih =>
    obtain ⟨x, y⟩ := o
    unfold sweepLoop at h
    repeat' split at h
    all_goals first | (cases h; rfl) | exact ih h

theorem good_SWEEP : Always env oom e.now (Good y e args) (cmdSWEEP y e args) := by
  unfold cmdSWEEP
  split
  · exact .ret (.err rfl)
  · split
    · rename_i h; exact .ret (.err (sweepLoop_err _ h))
    · split
      · exact .ret (good_okPlain.quiet rfl)
      · split
        · exact .ret (.err rfl)
        · unfold sweepWork
          exact always_calls (.ret good_okPlain)

theorem good_PURGE : Always env oom e.now (Good y e args) (cmdPURGE y e args) := by
  unfold cmdPURGE
  split
  · exact .ret (.err rfl)
  · split
    · exact .ret (good_okPlain.quiet rfl)
    · exact .ret (.err rfl)
  · refine .ret ?_
    split
    · exact good_okPlain
    · exact .err rfl

theorem Good.bulks (ts : List Bytes) : Good y e args (.arr ts.length :: ts.map .bulk) := by
  have := Good.arr (y := y) (e := e) (args := args) (outs := ts.map fun t => [.bulk t])
    (by
      intro o ho
      obtain ⟨t, _, rfl⟩ := List.mem_map.1 ho
      exact .bulk)
  rw [List.length_map] at this
  rwa [show (ts.map fun t => [W.bulk t]).flatten = ts.map .bulk from by clear this; induction ts <;> simp_all] at this

theorem always_keysWork {α : Type} {P : α → Prop} {now : Int} {pattern : Bytes} {fin : List Bytes → Prog α} (h : ∀ keys, Always env oom now P (fin keys))
    {is : List Nat} {keys : List Bytes} : Always env oom now P (keysWork pattern fin is keys) := by
  induction is generalizing keys with
  | nil => exact h keys
  | cons i is ih => exact .call fun _ _ _ _ => ih

theorem good_KEYS : Always env oom e.now (Good y e args) (cmdKEYS y e args) := by
  unfold cmdKEYS
  split
  · split
    · exact .ret (.err rfl)
    · refine always_keysWork fun keys => .ret ?_
      split
      · rename_i hp
        refine .raws (by simp [hp]) ?_
        intro w hw
        simp only [pgEnd, List.mem_cons, List.mem_append, List.mem_map, List.not_mem_nil, or_false] at hw
        rcases hw with rfl | ⟨r, _, rfl⟩ | rfl | rfl <;> simp
      · exact .bulks _
  · exact .ret (.err rfl)

theorem good_DBSIZE : Always env oom e.now (Good y e args) (cmdDBSIZE y e args) := by
  unfold cmdDBSIZE
  split
  · refine .ret ?_
    split
    · exact good_pgRow ‹_›
    · exact .int
  · exact .ret (.err rfl)

theorem good_SELECT (hne : args ≠ []) : Always env oom e.now (Good y e args) (cmdSELECT e args) := by
  unfold cmdSELECT
  split
  · refine .ret (.quote ?_)
    intro t ht
    cases ht
    cases args with
    | nil => exact absurd rfl hne
    | cons a as => simp
  · split
    · split
      · exact .ret (.err rfl)
      · split
        · exact .ret (.err rfl)
        · exact .ret .ok
    · exact .ret (.err rfl)

theorem good_ECHO : Always env oom e.now (Good y e args) (cmdECHO e args) := by
  unfold cmdECHO
  split
  · refine .ret ?_
    split
    · exact good_pgRow ‹_›
    · exact .bulk
  · exact .ret (.err rfl)

theorem good_PING : Always env oom e.now (Good y e args) (cmdPING e args) := by
  unfold cmdPING
  split
  · refine .ret ?_
    split
    · exact good_pgRow ‹_›
    · exact ⟨by simp [Safe], fun _ _ => .leaf rfl, by simp, by simp⟩
  · refine .ret ?_
    split
    · exact good_pgRow ‹_›
    · exact .bulk
  · exact .ret (.err rfl)

theorem good_QUIT : Always env oom e.now (Good y e args) (cmdQUIT e) := by
  unfold cmdQUIT
  refine .ret ?_
  split
  · exact Good.ok.quiet rfl
  · exact ⟨by simp [Safe], fun h => absurd h ‹_›, by simp, by simp⟩

theorem good_MONITOR : Always env oom e.now (Good y e args) (cmdMONITOR y e args) := by
  unfold cmdMONITOR
  split
  · exact .ret (.err rfl)
  · split
    · refine .ret ?_
      split
      · exact Good.ok.quiet rfl
      · exact ⟨by simp [Safe], fun _ h => absurd h ‹_›, by simp [ErrMsg.quotes], by simp⟩
    · exact .ret (.err rfl)

theorem good_STATS {as : List Bytes} : Always env oom e.now (Good y e args) (cmdSTATS y e as) := by
  unfold cmdSTATS
  split
  · split
    · refine .ret (.raws (by simp [*]) ?_)
      intro w hw
      rcases List.mem_append.1 hw with hw | hw
      · obtain ⟨x, _, rfl⟩ := List.mem_map.1 hw
        exact Or.inl ⟨_, rfl⟩
      · rw [List.mem_singleton.1 hw]
        exact Or.inl ⟨_, rfl⟩
    · split
      · refine .ret (.raws (by simp [*]) ?_)
        intro w hw
        simp only [pgEnd, List.mem_cons, List.mem_append, List.mem_map, List.not_mem_nil, or_false] at hw
        rcases hw with rfl | ⟨r, _, rfl⟩ | rfl | rfl <;> simp
      refine .ret ?_
      have h2 : ∀ x : Bytes × Bytes, Good y e args [.arr 2, .bulk x.1, .bulk x.2] := fun x => Good.bulks [x.1, x.2]
      have := Good.arr (y := y) (e := e) (args := args) (outs := y.stats.map fun x => [.arr 2, .bulk x.1, .bulk x.2])
        (by
          intro o ho
          obtain ⟨t, _, rfl⟩ := List.mem_map.1 ho
          exact h2 t)
      rw [List.length_map] at this
      rwa [List.flatMap_def]
  · exact .ret (.err rfl)

theorem good_VERSION : Always env oom e.now (Good y e args) (cmdVERSION y e) := by
  unfold cmdVERSION
  refine .ret ?_
  split
  · exact .raws (by simp [*]) (by simp)
  · split
    · exact good_pgRow ‹_›
    · exact ⟨by simp [Safe], fun _ _ => .leaf rfl, by simp, by simp⟩

theorem scanLoop_err (as : List Bytes) {o : Bytes × Nat} {m : ErrMsg} (h : scanLoop as o = .error m) : ∀ t, m.quotes = some t → t ∈ as := by
  induction as using List.twoStepInduction generalizing o with
  | nil => unfold scanLoop at h; cases h
  | singleton a => unfold scanLoop at h; cases h; intro t ht; cases ht
  | cons_cons a x as ih1 ih2 =>
    obtain ⟨o1, o2⟩ := o
    unfold scanLoop at h
    intro t ht
    repeat' split at h
    all_goals first
      | (cases h; cases ht; done)
      | (have := ih1 h t ht; simp [this])
      | (cases h; cases ht; simp)

theorem good_scanReply (r : List Bytes × Nat) : Good y e args (.arr 2 :: .bulk (u64toa r.2) :: .arr r.1.length :: r.1.map .bulk) := by
  have := Good.arr (y := y) (e := e) (args := args) (outs := [[.bulk (u64toa r.2)], .arr r.1.length :: r.1.map .bulk])
    (by
      intro o ho
      simp only [List.mem_cons, List.not_mem_nil, or_false] at ho
      rcases ho with rfl | rfl
      · exact .bulk
      · exact .bulks _)
  simpa using this

theorem good_SCAN : Always env oom e.now (fun out => Good y e args out ∨ (IsWildScan y args ∧ out = [.undefined])) (cmdSCAN y e args) := by
  unfold cmdSCAN
  split
  · split
    · exact .ret (Or.inl (.err rfl))
    · rename_i hc
      split
      · rename_i h
        refine .ret (Or.inl (.quote fun t ht => ?_))
        have := scanLoop_err _ h t ht
        simp [this]
      · split
        · rename_i hs
          exact .ret (Or.inr ⟨⟨_, _, _, _, _, _, rfl, hc, hs⟩, rfl⟩)
        · refine .ret (Or.inl ?_)
          split
          · refine .raws (by simp [*]) ?_
            intro w hw
            simp only [pgEnd, List.mem_cons, List.mem_append, List.mem_map, List.not_mem_nil, or_false] at hw
            rcases hw with rfl | ⟨r, _, rfl⟩ | rfl | rfl <;> simp
          · exact good_scanReply _
  · exact .ret (Or.inl (.err rfl))

theorem good_AUTH {pw : Bytes} {st : ConnSt} : Good y e args (cmdAUTH e pw args st).1 := by
  unfold cmdAUTH
  split
  · split
    · exact .raws (by simp [*]) (by simp)
    · exact .err rfl
  · split
    · exact .err rfl
    · split
      · exact .err rfl
      · split
        · split
          · exact .err rfl
          · simp only []
            split
            · exact good_pgEnd ‹_›
            · exact .ok
        · exact .err rfl

theorem populateLoop_out {prefix_ : Bytes} {fin : List W} (hfin : Good y e args fin) {len : Nat} {range : Option (Int × Int)} (is : List Nat) :
    Always env oom e.now (fun out => Good y e args out ∨ out = [.undefined]) (populateLoop y fin prefix_ len range is) := by
  induction is with
  | nil => unfold populateLoop; exact .ret (Or.inl hfin)
  | cons i is ih =>
    unfold populateLoop
    split
    · exact .ret (Or.inr rfl)
    · exact .call fun _ _ _ _ => ih

theorem good_DEBUG {name : Bytes} {as : List Bytes} (hn : Spells name [100, 101, 98, 117, 103]) :
    Always env oom e.now (fun out => Good y e (name :: as) out ∨ (IsPopulate (name :: as) ∧ (out = [.undefined] ∨ out = [.failed])))
      (cmdDEBUG y e (name :: as)) := by
  unfold cmdDEBUG
  split
  · rename_i _ name' sub as' hl
    injection hl with hl1 hl2
    subst hl1 hl2
    refine .ite (fun hs => ?_) fun _ => ?_
    · have hpop : IsPopulate (name :: sub :: as') := ⟨name, sub, as', rfl, hn, (spells_iff _ _ (by decide)).2 ((argeq_iff _ _).1 hs)⟩
      simp only []
      have hgo : ∀ (count prefix_ len : Bytes) (range : Option (Int × Int)), Always env oom e.now
          (fun out => Good y e (name :: sub :: as') out ∨ (IsPopulate (name :: sub :: as') ∧ (out = [.undefined] ∨ out = [.failed])))
          (match parseI64 count with
            | none => .ret [.err .syntaxError]
            | some n =>
              if n < 0 then .ret [.err .syntaxError]
              else
                match parseI64 len with
                | none => .ret [.err .syntaxError]
                | some l =>
                  if l < 0 then .ret [.err .syntaxError]
                  else if y.alloc l = false then .ret [.failed]
                  else populateLoop y (okPlain e ([68, 69, 66, 85, 71, 32, 80, 79, 80, 85, 76, 65, 84, 69, 32] ++ i64toa n)) prefix_ l.toNat range
                    (y.order (visited n.toNat y.nprocs))) := by
        intro count prefix_ len range
        split
        · exact .ret (Or.inl (.err rfl))
        · split
          · exact .ret (Or.inl (.err rfl))
          · split
            · exact .ret (Or.inl (.err rfl))
            · split
              · exact .ret (Or.inl (.err rfl))
              · split
                · exact .ret (Or.inr ⟨hpop, Or.inr rfl⟩)
                · refine (populateLoop_out (args := name :: sub :: as') good_okPlain _).mono fun out ho => ?_
                  rcases ho with ho | ho
                  · exact Or.inl ho
                  · exact Or.inr ⟨hpop, Or.inl ho⟩
      split
      · exact hgo _ _ _ _
      · exact hgo _ _ _ _
      · exact .ret (Or.inl (.err rfl))
    · refine .ite (fun _ => .ret (Or.inl ?_)) fun _ => .ret (Or.inl (.err rfl))
      split
      · split
        · exact good_pgRow ‹_›
        · exact .bulk
      · exact .err rfl
  · exact .ret (Or.inl (.err rfl))

/-- What an answer is like. -/
def GoodOr (y : Sys) (e : Env) (args : List Bytes) (out : List W) : Prop :=
  Good y e args out ∨ (IsPopulate args ∧ (out = [.undefined] ∨ out = [.failed])) ∨ (IsWildScan y args ∧ out = [.undefined])

theorem good_call (hc : Clocks e) {pw : Bytes} {fn : Fn} {st : ConnSt} (hne : args ≠ [])
    (hd : fn = .cmdDEBUG → Spells (args.headD []) [100, 101, 98, 117, 103]) :
    Always env oom e.now (fun r => GoodOr y e args r.1) (call e pw (admin y) fn args st) := by
  have keep : ∀ {p : Prog (List W)}, Always env oom e.now (Good y e args) p →
      Always env oom e.now (fun r : List W × ConnSt => GoodOr y e args r.1) (p.map (·, st)) := fun h => .map (h.mono fun a ha => Or.inl ha)
  unfold call
  cases fn
  case cmdAUTH => exact .ret (Or.inl good_AUTH)
  case cmdDEBUG =>
    refine .map ?_
    cases args with
    | nil => exact absurd rfl hne
    | cons name as => exact (good_DEBUG (hd rfl)).mono fun a ha => ha.elim Or.inl fun h => Or.inr (Or.inl h)
  case cmdSCAN => exact .map (good_SCAN.mono fun a ha => ha.elim Or.inl fun h => Or.inr (Or.inr h))
  all_goals refine keep ?_
  · exact good_SET hc
  · exact good_GET
  · exact good_DEL
  · exact good_MGET
  · exact good_TTL
  · exact good_EXPIRE hc
  · exact good_SETEX hc
  · exact good_DBSIZE
  · exact good_QUIT
  · exact good_ECHO
  · exact good_EXISTS
  · exact good_FLUSHALL
  · exact good_MONITOR
  · exact good_PURGE
  · exact good_SWEEP
  · exact good_KEYS
  · exact good_SELECT hne
  · exact good_PING
  · exact good_TOUCH
  · exact good_INCRDECRBY
  · exact good_INCRDECRBY
  · exact good_INCRDECR
  · exact good_INCRDECR
  · exact good_APPEND
  · exact good_APPEND
  · exact good_SAVELOAD
  · exact good_STATS
  · exact good_VERSION

theorem good_evcommand (hc : Clocks e) {pw : Bytes} {st : ConnSt} (hne : args ≠ []) :
    Always env oom e.now (fun r => GoodOr y e args r.1) (evcommand e pw (admin y) args st) := by
  unfold evcommand
  simp only []
  split
  · exact .ret (Or.inl good_AUTH)
  · rcases command_lookup (args.headD []) with ⟨x, h1, h2, h3⟩ | ⟨h1, _⟩
    · rw [h1]
      refine good_call hc hne fun hd => ?_
      obtain ⟨x1, x2⟩ := x
      simp only at hd
      subst hd
      have : x1 = [100, 101, 98, 117, 103] := by
        have hall : ∀ x ∈ cmds, x.2 = .cmdDEBUG → x.1 = [100, 101, 98, 117, 103] := by decide +kernel
        exact hall _ h2 rfl
      rw [← this]
      exact h3
    · rw [h1]
      refine .ret (Or.inl (.quote ?_))
      intro t ht
      cases ht
      cases args with
      | nil => exact absurd rfl hne
      | cons a as => simp

end

/-! ### No crash -/

/-- **C69** (`_partial`: all but DEBUG POPULATE and SCAN with a cursor outside of the cache, see `Verif.Cmd.Scan`).  For all requests on all protocols, in all states, whatever other threads do: a command does no undefined
arithmetic, and fails no assertion. -/
theorem no_crash_partial {env : Spec.Env} {I : Spec.State → Spec.State → Prop} {oom : Bool} {y : Sys} {e : Env} (hc : Clocks e) {pw : Bytes}
    {st st' : ConnSt} {args : List Bytes} (hne : args ≠ []) {s s' : Spec.State} {out : List W}
    (h : Runs env I oom e.now (evcommand e pw (admin y) args st) s (out, st') s') (hbad : W.undefined ∈ out ∨ W.failed ∈ out) :
    IsPopulate args ∨ IsWildScan y args := by
  rcases good_evcommand hc hne I s _ s' h with hg | hg
  · rcases hbad with hb | hb
    · exact absurd hb hg.safe.1
    · exact absurd hb hg.safe.2
  · exact hg.elim (fun h => Or.inl h.1) fun h => Or.inr h.1

/-- The result of a program that makes no call. -/
def Prog.done {α : Type} : Prog α → Option α
  | .ret a => some a
  | .call _ _ => none

theorem Prog.of_done {α : Type} {p : Prog α} {a : α} (h : p.done = some a) : p = .ret a := by
  cases p with
  | ret b => simp only [Prog.done, Option.some.injEq] at h; rw [h]
  | call c k => cases h

/-- A small system. -/
def sys1 : Sys where
  nshards := 4
  nprocs := 2
  order := id
  bgwork := true
  persist := []
  version := [49, 46, 51]
  saved := fun _ _ _ => true
  loaded := fun _ => []
  count := 0
  scan := fun c _ _ => if c / 2 ^ 32 = 4 then none else some ([], 0)
  stats := []
  detach := [79, 75]
  alloc := fun l => l < 2 ^ 40
  rand := fun i => i

/-- A state with one key, `k`, with value `x`. -/
def st1 : Spec.State := ⟨fun k => if k = [107] then some ⟨[120], 0, 0, 1⟩ else none, fun _ => 0⟩

/-- Hypotheses of `no_crash_partial`: `INCR k` when `k` holds a text, over memcache. -/
example : Clocks (at_ .memcache 5) ∧ ∃ s s', Runs ⟨true, false, fun _ => 0⟩ busy false 5
    (evcommand (at_ .memcache 5) [] (admin sys1) [[105, 110, 99, 114], [107]] ⟨true⟩) s ([.raw nonNumericValue], ⟨true⟩) s' := by
  refine ⟨by simp only [Clocks, at_, IsI64]; decide, st1, st1, ?_⟩
  rw [evcommand_known (low := [105, 110, 99, 114]) (fn := .cmdINCR) ((spells_iff _ _ (by decide)).2 (by decide)) (by decide)]
  refine .call (s1 := st1) (r := ⟨.found, [([107], ⟨[120], 0, 0, 1⟩)]⟩) (s2 := st1) trivial ?_ ?_
  · unfold Spec.Step
    simp only []
    rw [show st1.dict.get 5 [107] = some ⟨[120], 0, 0, 1⟩ from rfl]
    exact ⟨rfl, trivial⟩
  · exact .ret _ _

/-- **C69, negation.**  `DEBUG POPULATE 1 k 1 5-5` divides by zero. -/
theorem populate_divides_by_zero (env : Spec.Env) (I : Spec.State → Spec.State → Prop) (s : Spec.State) :
    Runs env I false 5 (evcommand (at_ .resp 5) [] (admin sys1)
      [[68, 69, 66, 85, 71], [80, 79, 80, 85, 76, 65, 84, 69], [49], [107], [49], [53, 45, 53]] ⟨true⟩) s ([.undefined], ⟨true⟩) s := by
  rw [evcommand_known (low := [100, 101, 98, 117, 103]) (fn := .cmdDEBUG) ((spells_iff _ _ (by decide)).2 (by decide)) (by decide)]
  have : call (at_ .resp 5) [] (admin sys1) .cmdDEBUG
      [[68, 69, 66, 85, 71], [80, 79, 80, 85, 76, 65, 84, 69], [49], [107], [49], [53, 45, 53]] ⟨true⟩ = .ret ([.undefined], ⟨true⟩) := by
    exact Prog.of_done (by decide +kernel)
  rw [this]
  exact .ret _ _

end Verif.Cmd
