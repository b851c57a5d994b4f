import Mathlib.Tactic.Common
import Verif.Cmd.Link

/-!
C45 for memcache connections, C46 (APPEND, PREPEND).
-/

namespace Verif.Cmd

open Verif.Num Verif.Resp Verif.Cache Function

/-- **C45** (`_partial`), memcache connections: `incr` and `decr` reach the commands as `uincrby` and `udecrby`.  Exact when the result is in range;
missing keys and values that are not numbers are reported and nothing changes.  (Outside of the range: `memcache_decr_wraps`.) -/
theorem memcache_incr_exact_partial {env : Spec.Env} {oom : Bool} {e : Env} {pw : Bytes} {other : Fn → Env → List Bytes → Prog (List W)}
    {args : List Bytes} {decr : Bool} {key amount : Bytes} {s s' : Spec.State} {out : List W} {δ : Int}
    (ha : IncrArgs args decr true key amount) (hproto : e.proto = .memcache) (h0 : 0 < e.now)
    (hr : Executes env (held env key) oom e pw other args s out s')
    (hp : Plain true amount) (hδ : NumText true amount δ) :
    (s.dict.get e.now key = none → out = [.raw [78, 79, 84, 95, 70, 79, 85, 78, 68, 13, 10]] ∧ Same env key s s') ∧
    ∀ it, s.dict.get e.now key = some it → Plain true it.value →
      ((¬ ∃ x, NumText true it.value x) → out = [.raw nonNumericValue] ∧ Same env key s s') ∧
      ∀ x, NumText true it.value x → InR true (result decr x δ) →
        (∃ t, out = [.raw t, .raw [13, 10]] ∧ DenotesInt t (result decr x δ) ∧ ∃ c, Only env key ⟨t, it.expires, it.flags, c⟩ s s') ∨
        (oom = true ∧ out = [.err .outOfMemory] ∧ Same env key s s') := by
  rcases incr_runs ha hr with ⟨h1, _, _⟩ | ⟨δ', cmd, h1, h2⟩
  · rw [← parse64_iff hp, h1] at hδ; simp at hδ
  · have hδδ : δ' = δ := by
      rw [← parse64_iff hp, h1] at hδ
      simpa using hδ
    subst hδδ
    rcases execIncr_cases h0 h2 with ⟨⟨it, b1, b2⟩, b3, b4⟩ | ⟨b1, _, b3, b4⟩ | ⟨b0, x, b1, b2⟩
    · rw [if_pos hproto] at b4
      refine ⟨fun hc => by rw [b1] at hc; simp at hc, ?_⟩
      intro it' hit hpl
      rw [b1] at hit
      simp at hit
      subst hit
      refine ⟨fun _ => ⟨b4, b3⟩, ?_⟩
      intro x hx
      rw [← parse64_iff hpl, b2] at hx
      simp at hx
    · refine ⟨fun _ => ⟨b4, b3⟩, ?_⟩
      intro it hit
      rw [b1] at hit; simp at hit
    · have hsome : s.dict.get e.now key ≠ none := fun hc => b0 hc hproto
      refine ⟨fun hc => absurd hc hsome, ?_⟩
      intro it hit hpl
      rcases b1 with ⟨b1, _⟩ | ⟨it', b1, b3⟩
      · exact absurd b1 hsome
      · rw [b1] at hit
        simp at hit
        subst hit
        refine ⟨fun hc => absurd ⟨x, (parse64_iff hpl).1 b3⟩ hc, ?_⟩
        intro x' hx' hin
        have hxx : x' = x := by
          rw [← parse64_iff hpl, b3] at hx'
          simpa using hx'.symm
        subst hxx
        rcases b2 with ⟨b4, b5, _⟩ | ⟨_, b4⟩
        · exact absurd hproto b5
        · rcases b4 with b4 | ⟨b4, c, b5⟩
          · exact Or.inr b4
          · left
            rw [if_pos hproto, wrap_id _ _ hin] at b4
            rw [wrap_id _ _ hin, b1] at b5
            exact ⟨_, b4, text64_denotes _ _ hin, c, b5⟩

/-- `set k 41`, then `incr k 1`, as the memcache parser hands them on. -/
example : ∃ s s', Executes ⟨true, false, shardIdx ctx4 4⟩ (held ⟨true, false, shardIdx ctx4 4⟩ [107]) false (at_ .memcache 1000) [] noOther
      [[117, 105, 110, 99, 114, 98, 121], [107], [49]] s [.raw [52, 50], .raw [13, 10]] s' ∧
      IncrArgs [[117, 105, 110, 99, 114, 98, 121], [107], [49]] false true [107] [49] := by
  obtain ⟨s, s', h⟩ := last_executes ctx4_valid (by decide : 0 < 4)
    [(at_ .memcache 1000, [[115, 101, 116], [107], [52, 49]])] (at_ .memcache 1000, [[117, 105, 110, 99, 114, 98, 121], [107], [49]])
    (by simp only [at_, IsI64]; decide) (by simp) (out := [.raw [52, 50], .raw [13, 10]]) (by decide +kernel)
  exact ⟨s, s', h.mono (alone_held _ _), ⟨_, Or.inl ⟨rfl, (spells_iff _ _ (by decide)).2 (by decide)⟩⟩⟩

/-! ### C46 -/

def appendName (prepend : Bool) : Bytes := if prepend = true then [112, 114, 101, 112, 101, 110, 100] else [97, 112, 112, 101, 110, 100]

/-- What is stored: the added bytes in front of or behind the old value. -/
def joinedValue (prepend : Bool) (old new : Bytes) : Bytes := if prepend = true then new ++ old else old ++ new

/-- The reply to a successful command. -/
def storedReply (p : Proto) (len : Nat) : W := if p = .memcache then .raw [83, 84, 79, 82, 69, 68, 13, 10] else .int len

/-- **C46.**  APPEND and PREPEND, for all old values and added bytes, while other threads may change keys of other shards: the value is
the concatenation, expiry and flags are kept, the reply is the new length (`STORED` for memcache); results of more than 512 MB are refused and
nothing changes.  A missing key is created (RESP) or reported (memcache). -/
theorem append_exact {env : Spec.Env} {oom : Bool} {e : Env} {pw : Bytes} {other : Fn → Env → List Bytes → Prog (List W)}
    {name key val : Bytes} {prepend : Bool} {s s' : Spec.State} {out : List W} (hn : Spells name (appendName prepend))
    (hproto : e.proto = .resp ∨ e.proto = .memcache) (h0 : 0 < e.now)
    (hr : Executes env (held env key) oom e pw other [name, key, val] s out s') :
    (∀ it, s.dict.get e.now key = some it →
      (536870912 < (joinedValue prepend it.value val).length → out = [.err .tooLarge] ∧ Same env key s s') ∧
      ((joinedValue prepend it.value val).length ≤ 536870912 →
        (out = [storedReply e.proto (joinedValue prepend it.value val).length] ∧
          ∃ c, Only env key ⟨joinedValue prepend it.value val, it.expires, it.flags, c⟩ s s') ∨
        (oom = true ∧ out = [.err .outOfMemory] ∧ Same env key s s'))) ∧
    (s.dict.get e.now key = none →
      (e.proto = .memcache → out = [.raw [78, 79, 84, 95, 83, 84, 79, 82, 69, 68, 13, 10]] ∧ Same env key s s') ∧
      (e.proto = .resp →
        (out = [.int val.length] ∧ ∃ c, Only env key ⟨val, 0, 0, c⟩ s s') ∨
        (oom = true ∧ out = [.err .outOfMemory] ∧ Same env key s s'))) := by
  have hl : (appendName prepend).map lower = appendName prepend := by cases prepend <;> decide
  obtain ⟨st', hr⟩ := hr
  have hr : Runs env (held env key) oom e.now (cmdAPPEND e [name, key, val]) s out s' := by
    have : ∀ fn, (appendName prepend, fn) ∈ cmds → call e pw other fn [name, key, val] ⟨true⟩ =
        Prog.map (·, ⟨true⟩) (cmdAPPEND e [name, key, val]) → Runs env (held env key) oom e.now (cmdAPPEND e [name, key, val]) s out s' := by
      intro fn hfn hc
      rw [evcommand_known hn hfn, hc] at hr
      obtain ⟨a, h1, h2⟩ := runs_map hr
      simp only [Prod.mk.injEq] at h2
      rw [h2.1]; exact h1
    cases prepend
    · exact this .cmdAPPEND (by decide) rfl
    · exact this .cmdPREPEND (by decide) rfl
  have hpre : argeq name [112, 114, 101, 112, 101, 110, 100] = prepend := by
    have := (spells_iff _ _ hl).1 hn
    rw [Bool.eq_iff_iff, argeq_iff, this]
    cases prepend <;> decide
  have hnp : ¬ e.proto = .postgres := by rcases hproto with hp | hp <;> rw [hp] <;> decide
  unfold cmdAPPEND at hr
  simp only [hpre, if_neg hnp] at hr
  obtain ⟨s1, r, s2, hI, hs, hr⟩ := runs_call hr
  obtain ⟨h1, h2⟩ := load_step hs
  subst h1
  rw [get_held hI] at h2
  have hsame := held_same hI
  -- what the store gives
  have fin : ∀ (v : Bytes) (exp : Int) (fl : Nat), Runs env (held env key) oom e.now
      (.call (plain key v exp 0 fl) fun r =>
        if r.status = .nomem then .ret [.err .outOfMemory]
        else if r.status = .inserted ∨ r.status = .replaced then
          .ret (if e.proto = .memcache then [.raw [83, 84, 79, 82, 69, 68, 13, 10]] else [.int v.length])
        else .ret [.failed]) s2 out s' →
      (out = [storedReply e.proto v.length] ∧ ∃ c, Only env key ⟨v, Spec.normExp exp, fl, c⟩ s s') ∨
      (oom = true ∧ out = [.err .outOfMemory] ∧ Same env key s s') := by
    intro v exp fl hr
    obtain ⟨s3, r', s4, hI', hs', hr'⟩ := runs_call hr
    have hsame' := hsame.trans (held_same hI')
    rcases plain_step hs' with ⟨a1, a2, a3⟩ | ⟨a1, c, a3⟩
    · right
      rw [a2, if_pos rfl] at hr'
      obtain ⟨b1, b2⟩ := runs_ret hr'
      exact ⟨a1, b1, by rw [b2]; exact hsame'.trans (same_dict a3)⟩
    · left
      rw [if_neg (by rcases a1 with a1 | a1 <;> rw [a1] <;> decide), if_pos a1] at hr'
      obtain ⟨b1, b2⟩ := runs_ret hr'
      exact ⟨by rw [b1]; unfold storedReply; split <;> rfl, c, by rw [b2]; exact only_update hsame' a3⟩
  rcases h2 with ⟨h2, rfl⟩ | ⟨it, h2, rfl⟩
  · refine ⟨fun it hit => by rw [h2] at hit; simp at hit, fun _ => ?_⟩
    rw [if_pos rfl] at hr
    constructor
    · intro hm
      rw [if_pos hm] at hr
      obtain ⟨h3, h4⟩ := runs_ret hr
      exact ⟨h3, by rw [h4]; exact hsame⟩
    · intro hm
      have hnm : e.proto ≠ .memcache := by rw [hm]; decide
      rw [if_neg hnm] at hr
      rcases fin val 0 0 hr with h | h
      · unfold storedReply at h
        rw [if_neg hnm] at h
        exact Or.inl h
      · exact Or.inr h
  · refine ⟨?_, fun hc => by rw [h2] at hc; simp at hc⟩
    intro it' hit
    rw [h2] at hit
    simp at hit
    subst hit
    rw [if_neg (by simp)] at hr
    change Runs env (held env key) oom e.now
      (if ((joinedValue prepend it.value val).length : Int) > maxArgSz then .ret [.err .tooLarge]
      else .call (plain key (joinedValue prepend it.value val) it.expires 0 it.flags) fun r =>
        if r.status = .nomem then .ret [.err .outOfMemory]
        else if r.status = .inserted ∨ r.status = .replaced then
          .ret (if e.proto = .memcache then [.raw [83, 84, 79, 82, 69, 68, 13, 10]] else [.int (joinedValue prepend it.value val).length])
        else .ret [.failed]) s2 out s' at hr
    have hmax : maxArgSz = 536870912 := by decide
    constructor
    · intro hbig
      rw [if_pos (by rw [hmax]; omega)] at hr
      obtain ⟨h3, h4⟩ := runs_ret hr
      exact ⟨h3, by rw [h4]; exact hsame⟩
    · intro hsm
      rw [if_neg (by rw [hmax]; omega)] at hr
      have := fin _ _ _ hr
      rw [normExp_visible h0 h2] at this
      exact this

/-- `SET k ab EX 10`, then `Prepend k cd`. -/
example : ∃ s s', Executes ⟨true, false, shardIdx ctx4 4⟩ (held ⟨true, false, shardIdx ctx4 4⟩ [107]) false (at_ .resp 1000) [] noOther
      [[80, 114, 101, 112, 101, 110, 100], [107], [99, 100]] s [.int 4] s' ∧ Spells [80, 114, 101, 112, 101, 110, 100] (appendName true) := by
  obtain ⟨s, s', h⟩ := last_executes ctx4_valid (by decide : 0 < 4)
    [(at_ .resp 1000, [[115, 101, 116], [107], [97, 98], [101, 120], [49, 48]])] (at_ .resp 1000, [[80, 114, 101, 112, 101, 110, 100], [107], [99, 100]])
    (by simp only [at_, IsI64]; decide) (by simp) (out := [.int 4]) (by decide +kernel)
  exact ⟨s, s', h.mono (alone_held _ _), (spells_iff _ _ (by decide)).2 (by decide)⟩

end Verif.Cmd
