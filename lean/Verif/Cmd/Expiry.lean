import Mathlib.Tactic.Common
import Mathlib.Tactic.Linarith
import Verif.Cmd.Multi

/-!
C47: EXPIRE, TTL and PTTL.
-/

namespace Verif.Cmd

open Verif.Num Verif.Resp Verif.Cache Function

def expireName : Bytes := [101, 120, 112, 105, 114, 101]
def ttlName (ms : Bool) : Bytes := if ms = true then [112, 116, 116, 108] else [116, 116, 108]

/-- A number as an argument: at most 21 bytes that denote it, within 64 bits. -/
def IntArg (t : Bytes) (x : Int) : Prop := t.length ≤ 21 ∧ DenotesInt t x ∧ IsI64 x

/-- The latest time. -/
def lastTime : Int := 2 ^ 63 - 1

/-- `x` units from now, not beyond the latest time. -/
def fromNow (now x unit : Int) : Int := min (now + x * unit) lastTime

theorem IntArg.parse {t : Bytes} {x : Int} (h : IntArg t x) : parseI64 t = some x := by
  rw [parseI64_iff]
  exact Or.inr ⟨h.1, h.2.1, h.2.2.1, h.2.2.2⟩

theorem saturate_nonneg {x : Int} (h : 0 ≤ x) : saturate x = min x lastTime := by
  unfold saturate lastTime
  rw [if_neg (by omega)]
  split <;> omega

theorem deadline_eq {now x unit : Int} (hn : IsI64 now) (h0 : 0 < now) (hu : 0 < unit) (hu2 : IsI64 unit) (hx : IsI64 x)
    (hle : x ≤ 0 → 0 < now + x * unit) :
    ((mulClamp x unit).bind fun y => addClamp now y) = some (fromNow now x unit) := by
  rw [mulClamp_exact _ _ hx hu2]
  simp only [Option.bind_some]
  rw [addClamp_exact _ _ hn (saturate_spec _).1]
  congr 1
  unfold fromNow
  by_cases hp : 0 < x
  · have hm : 0 < x * unit := Int.mul_pos hp hu
    rw [saturate_nonneg (le_of_lt hm)]
    unfold IsI64 at hn
    have : 0 ≤ now + min (x * unit) lastTime := by unfold lastTime; omega
    rw [saturate_nonneg this]
    unfold lastTime; omega
  · have h1 := hle (by omega)
    have h2 : x * unit ≤ 0 := Int.mul_nonpos_of_nonpos_of_nonneg (by omega) (le_of_lt hu)
    unfold IsI64 at hn
    have h3 : saturate (x * unit) = x * unit := (saturate_spec _).2.1 (by unfold IsI64; omega)
    rw [h3, saturate_nonneg (by omega)]

/-- `s'` is `s` except that `key` holds `it` now. -/
def Put (key : Bytes) (it : Spec.Item) (s s' : Spec.State) : Prop := s'.dict key = some it ∧ ∀ k, k ≠ key → s'.dict k = s.dict k

variable {env : Spec.Env} {I : Spec.State → Spec.State → Prop} {oom : Bool} {e : Env} {pw : Bytes}
  {other : Fn → Env → List Bytes → Prog (List W)}

/-- **C47, EXPIRE** (`_partial`: see `expire_makes_permanent` for amounts that reach before time 0).  For all amounts of seconds and whatever
other threads do before: an existing key keeps value and flags and is visible exactly until now + x seconds (not beyond the latest
time), so not at all from now on if x ≤ 0; nothing else changes. -/
theorem expire_exact_partial {name key secs : Bytes} {x : Int} {s s' : Spec.State} {out : List W} (hn : Spells name expireName)
    (hp : e.proto = .resp) (hnow : IsI64 e.now) (h0 : 0 < e.now) (hx : IntArg secs x) (hle : x ≤ 0 → 0 < e.now + x * 1000000000)
    (h : Executes env I oom e pw other [name, key, secs] s out s') :
    ∃ s1, I s s1 ∧
      (s1.dict.get e.now key = none → out = [.int 0] ∧ s' = s1) ∧
      ∀ it, s1.dict.get e.now key = some it →
        (out = [.int 1] ∧ (∃ c, Put key ⟨it.value, fromNow e.now x 1000000000, it.flags, c⟩ s1 s') ∧
          (∀ t, (s'.dict.get t key).map (·.value) = if t < fromNow e.now x 1000000000 then some it.value else none) ∧
          (x ≤ 0 → ∀ t, e.now ≤ t → s'.dict.get t key = none)) ∨
        (oom = true ∧ out = [.int 0] ∧ s'.dict = s1.dict) := by
  rw [executes_iff hn (by decide : (_, Fn.cmdEXPIRE) ∈ cmds) rfl] at h
  unfold cmdEXPIRE at h
  simp only [hx.parse] at h
  rw [show second = 1000000000 from rfl, deadline_eq hnow h0 (by decide) (by unfold IsI64; decide) hx.2.2 hle] at h
  simp only [] at h
  obtain ⟨s1, r, s2, h1, h2, h3⟩ := runs_call h
  have hm : e.proto ≠ .memcache := by rw [hp]; decide
  rw [if_neg hm, if_neg (by rw [hp]; decide)] at h3
  obtain ⟨h4, rfl⟩ := runs_ret h3
  refine ⟨s1, h1, ?_, ?_⟩
  · intro hg
    simp [Spec.Step, hg] at h2
    obtain ⟨rfl, rfl⟩ := h2
    exact ⟨by rw [h4]; simp, rfl⟩
  · intro it hg
    have hpos : 0 < fromNow e.now x 1000000000 := by
      unfold fromNow lastTime
      by_cases hxp : x ≤ 0
      · have := hle hxp; omega
      · have : 0 < x * 1000000000 := by omega
        omega
    have hnorm : Spec.normExp (fromNow e.now x 1000000000) = fromNow e.now x 1000000000 := by
      unfold Spec.normExp; rw [if_pos hpos]
    simp only [Spec.Step, hg] at h2
    rcases h2 with ⟨rfl, rfl⟩ | ⟨ho, rfl, rfl⟩
    · left
      rw [hnorm] at *
      refine ⟨by rw [h4]; simp, ⟨_, update_self _ _ _, fun k hk => update_of_ne hk _ _⟩, ?_, ?_⟩
      · intro t
        unfold Spec.Dict.get
        simp only [update_self, Option.filter]
        by_cases ht : t < fromNow e.now x 1000000000
        · rw [if_pos ht, if_pos (by simp [Spec.Item.visible, ht])]; rfl
        · rw [if_neg ht, if_neg (by simp [Spec.Item.visible, ht]; omega)]; rfl
      · intro hxl t ht
        unfold Spec.Dict.get
        simp only [update_self, Option.filter]
        have : fromNow e.now x 1000000000 ≤ e.now := by unfold fromNow; omega
        rw [if_neg (by simp [Spec.Item.visible]; omega)]
    · right
      exact ⟨ho, by rw [h4]; simp, rfl⟩

/-- **C47 is false of the code** for amounts that reach before time 0 of the clock (which starts when the machine starts): 100 seconds
after the start, `EXPIRE k -200` on a key with 10 seconds to live makes it permanent instead of removing it. -/
theorem expire_makes_permanent :
    replies ctx4 4 [(at_ .resp 100000000000, [[115, 101, 116], [107], [97], [101, 120], [49, 48]]),
      (at_ .resp 100000000000, [expireName, [107], [45, 50, 48, 48]]),
      (at_ .resp 900000000000, [ttlName false, [107]]),
      (at_ .resp 900000000000, [getName, [107]])] = some [[.str [79, 75]], [.int 1], [.int (-1)], [.bulk [97]]] := by
  decide +kernel

/-- **C47, TTL and PTTL.**  The whole seconds (milliseconds) left, -1 for a permanent key, -2 for a missing one; nothing changes. -/
theorem ttl_exact {name key : Bytes} {ms : Bool} {s s' : Spec.State} {out : List W} (hn : Spells name (ttlName ms))
    (hp : e.proto = .resp) (h0 : 0 < e.now) (h : Executes env I oom e pw other [name, key] s out s') :
    I s s' ∧ ∃ n, out = [.int n] ∧
      (s'.dict.get e.now key = none → n = -2) ∧
      ∀ it, s'.dict.get e.now key = some it →
        (it.expires = 0 → n = -1) ∧
        (it.expires ≠ 0 → n * (if ms then 1000000 else 1000000000) ≤ it.expires - e.now ∧
          it.expires - e.now < (n + 1) * (if ms then 1000000 else 1000000000)) := by
  have hl : (ttlName ms).map lower = ttlName ms := by cases ms <;> decide
  have hmem : (ttlName ms, Fn.cmdTTL) ∈ cmds := by cases ms <;> decide
  have hms : argeq name [112, 116, 116, 108] = ms := by
    have := (spells_iff _ _ hl).1 hn
    rw [Bool.eq_iff_iff, argeq_iff, this]
    cases ms <;> decide
  rw [executes_iff hn hmem rfl] at h
  unfold cmdTTL at h
  simp only [hms] at h
  obtain ⟨s1, r, s2, h1, h2, h3⟩ := runs_call h
  rw [if_neg (show ¬ e.proto = .postgres by rw [hp]; decide)] at h3
  cases hg : s1.dict.get e.now key with
  | none =>
    simp [Spec.Step, hg] at h2
    obtain ⟨rfl, rfl⟩ := h2
    rw [if_pos rfl, if_pos hp] at h3
    obtain ⟨h4, rfl⟩ := runs_ret h3
    exact ⟨h1, -2, h4, fun _ => rfl, by intro it hit; rw [hg] at hit; simp at hit⟩
  | some it =>
    simp [Spec.Step, hg] at h2
    obtain ⟨rfl, rfl⟩ := h2
    rw [if_neg (by simp)] at h3
    obtain ⟨h4, rfl⟩ := runs_ret h3
    refine ⟨h1, _, h4, by intro hc; rw [hg] at hc; simp at hc, ?_⟩
    intro it' hit
    rw [hg] at hit
    simp at hit
    subst hit
    have hvis : it.visible e.now = true := by
      unfold Spec.Dict.get at hg
      exact (Option.filter_eq_some_iff.1 hg).2
    constructor
    · intro h5
      simp [ttlOf, h5]
    · intro h5
      have hlt : e.now < it.expires := by simpa [Spec.Item.visible, h5] using hvis
      simp only [ttlOf, show it.expires > 0 by omega, if_true]
      cases ms
      · simp only [Bool.false_eq_true, if_false]
        rw [show second = 1000000000 from rfl, Int.tdiv_eq_ediv_of_nonneg (by omega)]
        omega
      · simp only [if_true]
        rw [show millisecond = 1000000 from rfl, Int.tdiv_eq_ediv_of_nonneg (by omega)]
        omega

/-- `SET k a EX 10`, then `expire k 25`, at time 1000. -/
example : (∃ s s', Executes ⟨true, false, shardIdx ctx4 4⟩ alone false (at_ .resp 1000) [] noOther
    [expireName, [107], [50, 53]] s [.int 1] s') ∧ IntArg [50, 53] 25 ∧ Spells expireName expireName := by
  refine ⟨last_executes ctx4_valid (by decide : 0 < 4) [(at_ .resp 1000, [[115, 101, 116], [107], [97], [101, 120], [49, 48]])]
    (at_ .resp 1000, [expireName, [107], [50, 53]]) (by simp only [at_, IsI64]; decide) (by simp) (by decide +kernel), ?_, spells_self⟩
  exact ⟨by decide, ⟨[], [], [50, 53], rfl, by decide, by decide, by decide, Or.inl ⟨Or.inl rfl, by decide⟩⟩, by unfold IsI64; decide⟩

example : ∃ s s', Executes ⟨true, false, shardIdx ctx4 4⟩ alone false (at_ .resp 1000001000) [] noOther
    [ttlName true, [107]] s [.int 9000] s' :=
  last_executes ctx4_valid (by decide : 0 < 4) [(at_ .resp 1000, [[115, 101, 116], [107], [97], [101, 120], [49, 48]])]
    (at_ .resp 1000001000, [ttlName true, [107]]) (by simp only [at_, IsI64]; decide) (by simp [at_]) (by decide +kernel)

end Verif.Cmd
