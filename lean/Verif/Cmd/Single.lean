import Mathlib.Tactic.Common
import Verif.Cmd.SetOpt

/-!
C47 (SETEX), C49 (MGETS, TOUCH).
-/

namespace Verif.Cmd

open Verif.Num Verif.Resp Verif.Cache Function

def setexName : Bytes := [115, 101, 116, 101, 120]
def mgetsName : Bytes := [109, 103, 101, 116, 115]
def touchName : Bytes := [116, 111, 117, 99, 104]

variable {env : Spec.Env} {I : Spec.State → Spec.State → Prop} {oom : Bool} {e : Env} {pw : Bytes}
  {other : Fn → Env → List Bytes → Prog (List W)}

/-- **C47, SETEX.**  For all keys, values and numbers of seconds, whatever other threads do before: a number that is not positive is
refused; otherwise the value is stored with flags 0 and is visible exactly until now + x seconds (not beyond the latest time), whatever was
there before, and nothing else changes (when memory is low one other key may go). -/
theorem setex_exact {name key val secs : Bytes} {x : Int} {s s' : Spec.State} {out : List W} (hn : Spells name setexName)
    (hp : e.proto = .resp) (hnow : IsI64 e.now) (h0 : 0 < e.now) (hx : IntArg secs x)
    (h : Executes env I oom e pw other [name, key, secs, val] s out s') :
    (x ≤ 0 → out = [.err .invalidExpire] ∧ s' = s) ∧
    (0 < x → ∃ s1, I s s1 ∧
      (((oom = true ∨ (e.lowmem = true ∧ env.noevict = true)) ∧ out = [.err .outOfMemory] ∧ s'.dict = s1.dict) ∨
       (out = [.str [79, 75]] ∧ ∃ c, Stored e.lowmem key ⟨val, fromNow e.now x 1000000000, 0, c⟩ s1 s'))) := by
  rw [executes_iff hn (by decide : (_, Fn.cmdSETEX) ∈ cmds) rfl] at h
  unfold cmdSETEX at h
  simp only [hx.parse] at h
  constructor
  · intro hle
    rw [if_pos hle] at h
    exact runs_ret h
  · intro hpos
    rw [if_neg (by omega), show second = 1000000000 from rfl,
      deadline_eq hnow h0 (by decide) (by unfold IsI64; decide) hx.2.2 (by omega)] at h
    simp only [] at h
    have hd : 0 < fromNow e.now x 1000000000 := by unfold fromNow lastTime; omega
    have hc : (⟨fromNow e.now x 1000000000, false, false, false, false, false, 0, 0, false⟩ : SetOpts) =
        { collect [.expire (fromNow e.now x 1000000000)] with hasex := false } := by
      simp [collect, deadlineOf, flagsOf, tokenOf, Opt.deadline?, Opt.flags?, Opt.token?]
    rw [hc] at h
    unfold execSET at h
    obtain ⟨s1, r, s2, h1, h2, h3⟩ := runs_call h
    obtain ⟨h4, rfl⟩ := runs_ret h3
    refine ⟨s1, h1, ?_⟩
    have hdl : deadlineOf [.expire (fromNow e.now x 1000000000)] = some (fromNow e.now x 1000000000) := rfl
    rcases set_step (os := [.expire (fromNow e.now x 1000000000)]) (by intro d hd'; rw [hdl] at hd'; simp at hd'; omega)
      (fun it hit => visible_nonneg h0 hit) h2 with ⟨a1, rfl, a3⟩ | ⟨a1, _, _⟩ | ⟨a1, a2, a3, a4⟩
    · exact Or.inl ⟨a1, by rw [h4]; simp [setReply], a3⟩
    · exfalso
      unfold Refused at a1
      cases hg : s1.dict.get e.now key <;> rw [hg] at a1 <;> simp [tokenOf, Opt.token?] at a1
    · right
      constructor
      · rw [h4]
        unfold setReply
        rw [a3, a2]
        cases hg : s1.dict.get e.now key <;> simp [collect, hp]
      · obtain ⟨c, a4⟩ := a4
        refine ⟨c, ?_⟩
        have : newDeadline [.expire (fromNow e.now x 1000000000)] (s1.dict.get e.now key) = fromNow e.now x 1000000000 := by
          unfold newDeadline
          cases s1.dict.get e.now key <;> simp [hdl]
        rw [this] at a4
        exact a4

/-- What MGETS says about a key: flags, CAS token and value, or null. -/
def itemReply (d : Spec.Dict) (now : Int) (k : Bytes) : List W :=
  match d.get now k with
  | none => [.null]
  | some it => [.arr 3, .uint it.flags, .uint it.cas, .bulk it.value]

/-- **C49, MGETS.**  Whatever other threads do in between: one array element for each key, in order, each telling flags, CAS token and value
of the key at the moment of its turn, or null; nothing is changed. -/
theorem mgets_exact {name : Bytes} {ks : List Bytes} {s s' : Spec.State} {out : List W} (hp : e.proto = .resp) (hn : Spells name mgetsName)
    (hks : ks ≠ []) (h : Executes env I oom e pw other (name :: ks) s out s') :
    ∃ ws, out = .arr ks.length :: ws.flatten ∧
      Each (fun k s w s' => I s s' ∧ w = itemReply s'.dict e.now k) ks s ws s' := by
  rw [executes_iff hn (by decide : (_, Fn.cmdMGET) ∈ cmds) rfl] at h
  have hm : e.proto ≠ .memcache := by rw [hp]; decide
  have loop : ∀ (ks : List Bytes) (out0 : List W) (n : Nat) {s s' : Spec.State} {out : List W},
      Runs env I oom e.now (mgetLoop e .mgets ks out0 n) s out s' →
      ∃ ws, out = out0 ++ ws.flatten ∧ Each (fun k s w s' => I s s' ∧ w = itemReply s'.dict e.now k) ks s ws s' := by
    intro ks
    induction ks with
    | nil =>
      intro out0 n s s' out h
      unfold mgetLoop at h
      obtain ⟨h1, rfl⟩ := runs_ret h
      rw [if_neg hm, if_neg (by rw [hp]; decide)] at h1
      exact ⟨[], by simpa using h1, .nil _⟩
    | cons k ks ih =>
      intro out0 n s s' out h
      unfold mgetLoop at h
      obtain ⟨s1, r, s2, h1, h2, h3⟩ := runs_call h
      obtain ⟨rfl, h4⟩ := load_step h2
      have hadd : (if r.status = .notfound then (if e.proto = .resp then [W.null] else []) else r.shown.flatMap (getEntry e .mgets)) =
          itemReply s2.dict e.now k := by
        unfold itemReply
        rcases h4 with ⟨h4, rfl⟩ | ⟨it, h4, rfl⟩
        · rw [if_pos rfl, if_pos hp, h4]
        · rw [if_neg (by simp), h4]; simp [getEntry, hp]
      rw [hadd] at h3
      obtain ⟨ws, h5, h6⟩ := ih _ _ h3
      exact ⟨_ :: ws, by rw [h5]; simp, .cons ⟨h1, rfl⟩ h6⟩
  cases ks with
  | nil => exact absurd rfl hks
  | cons k ks =>
    have : argeq name [109, 103, 101, 116, 115] = true := by
      have h1 := (spells_iff _ _ (by decide)).1 hn
      rw [argeq_iff, h1]
      decide
    unfold cmdMGET at h
    simp only [this, if_true, if_pos hp] at h
    obtain ⟨ws, h1, h2⟩ := loop (k :: ks) _ _ h
    exact ⟨ws, by simpa using h1, h2⟩

/-- **C49, TOUCH.**  Whatever other threads do in between: the reply is the number of keys (repeated ones repeatedly) that exist, each at the
moment of its turn; no value, flags or deadline changes. -/
theorem touch_counts {name : Bytes} {ks : List Bytes} {s s' : Spec.State} {out : List W} (hp : e.proto = .resp) (hn : Spells name touchName)
    (hks : ks ≠ []) (h : Executes env I oom e pw other (name :: ks) s out s') :
    ∃ ns : List Nat, out = [.int (ns.sum : Nat)] ∧
      Each (fun k s (n : Nat) s' => I s s' ∧ n = if s'.dict.get e.now k = none then 0 else 1) ks s ns s' := by
  rw [executes_iff hn (by decide : (_, Fn.cmdTOUCH) ∈ cmds) rfl] at h
  have hm : e.proto ≠ .memcache := by rw [hp]; decide
  have loop : ∀ (ks : List Bytes) (d : Nat) {s s' : Spec.State} {out : List W}, Runs env I oom e.now (touchLoop e ks d) s out s' →
      ∃ ns : List Nat, out = [.int (d + ns.sum : Nat)] ∧
        Each (fun k s (n : Nat) s' => I s s' ∧ n = if s'.dict.get e.now k = none then 0 else 1) ks s ns s' := by
    intro ks
    induction ks with
    | nil =>
      intro d s s' out h
      unfold touchLoop at h
      rw [if_neg hm] at h
      obtain ⟨h1, rfl⟩ := runs_ret h
      rw [if_neg (by rw [hp]; decide)] at h1
      exact ⟨[], h1, .nil _⟩
    | cons k ks ih =>
      intro d s s' out h
      unfold touchLoop at h
      obtain ⟨s1, r, s2, h1, h2, h3⟩ := runs_call h
      have h4 : s2 = s1 ∧ (r.status = .found ↔ s1.dict.get e.now k ≠ none) := by
        cases hg : s1.dict.get e.now k with
        | none => simp [Spec.Step, hg] at h2; obtain ⟨rfl, rfl⟩ := h2; simp
        | some it => simp [Spec.Step, hg] at h2; obtain ⟨rfl, rfl⟩ := h2; simp
      obtain ⟨rfl, h4⟩ := h4
      by_cases hg : s2.dict.get e.now k = none
      · rw [if_neg (by rw [h4]; simpa using hg)] at h3
        obtain ⟨ns, h5, h6⟩ := ih _ h3
        exact ⟨0 :: ns, by rw [h5]; simp, .cons ⟨h1, by rw [if_pos hg]⟩ h6⟩
      · rw [if_pos (h4.2 hg)] at h3
        obtain ⟨ns, h5, h6⟩ := ih _ h3
        exact ⟨1 :: ns, by rw [h5]; simp; omega, .cons ⟨h1, by rw [if_neg hg]⟩ h6⟩
  cases ks with
  | nil => exact absurd rfl hks
  | cons k ks =>
    unfold cmdTOUCH at h
    obtain ⟨ns, h1, h2⟩ := loop (k :: ks) 0 h
    exact ⟨ns, by simpa using h1, h2⟩

/-- `SET k a`, then `SetEx k 25 b`, at time 1000. -/
example : (∃ s s', Executes ⟨true, false, shardIdx ctx4 4⟩ alone false (at_ .resp 1000) [] noOther
    [setexName, [107], [50, 53], [98]] s [.str [79, 75]] s') ∧ IntArg [50, 53] 25 ∧ Spells [83, 101, 116, 69, 120] setexName := by
  refine ⟨last_executes ctx4_valid (by decide : 0 < 4) [(at_ .resp 1000, [setName, [107], [97]])]
    (at_ .resp 1000, [setexName, [107], [50, 53], [98]]) (by simp only [at_, IsI64]; decide) (by simp) (by decide +kernel), ?_,
    (spells_iff _ _ (by decide)).2 (by decide)⟩
  exact ⟨by decide, ⟨[], [], [50, 53], rfl, by decide, by decide, by decide, Or.inl ⟨Or.inl rfl, by decide⟩⟩, by unfold IsI64; decide⟩

example : ∃ s s', Executes ⟨true, false, shardIdx ctx4 4⟩ alone false (at_ .resp 1000) [] noOther
    [mgetsName, [107], [106]] s [.arr 2, .arr 3, .uint 7, .uint 2, .bulk [97], .null] s' :=
  last_executes ctx4_valid (by decide : 0 < 4) [(at_ .resp 1000, [setName, [107], [97], [102, 108, 97, 103, 115], [55]])]
    (at_ .resp 1000, [mgetsName, [107], [106]]) (by simp only [at_, IsI64]; decide) (by simp) (by decide +kernel)

example : ∃ s s', Executes ⟨true, false, shardIdx ctx4 4⟩ alone false (at_ .resp 1000) [] noOther
    [touchName, [107], [106], [107]] s [.int 2] s' :=
  last_executes ctx4_valid (by decide : 0 < 4) [(at_ .resp 1000, [setName, [107], [97]])]
    (at_ .resp 1000, [touchName, [107], [106], [107]]) (by simp only [at_, IsI64]; decide) (by simp) (by decide +kernel)

end Verif.Cmd
