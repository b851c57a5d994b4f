import Mathlib.Tactic.Common
import Verif.Cmd.Model

/-!
What a command does to the dictionary of `Verif.Cache.Spec`, possibly with changes by other threads between its calls, and the link to
the model of the cache.
-/

namespace Verif.Cmd

open Verif.Map Verif.Shard Verif.Cache

/-- A run of a program on the dictionary.  Before each call other threads may have changed the state as described by `I`. -/
inductive Runs (env : Spec.Env) (I : Spec.State → Spec.State → Prop) (oom : Bool) (now : Int) {α : Type} :
    Prog α → Spec.State → α → Spec.State → Prop
  | ret (a : α) (s : Spec.State) : Runs env I oom now (.ret a) s a s
  | call {c : Spec.Call} {k : Spec.Reply → Prog α} {s s1 s2 s3 : Spec.State} {r : Spec.Reply} {a : α} :
      I s s1 → Spec.Step env oom now c s1 r s2 → Runs env I oom now (k r) s2 a s3 → Runs env I oom now (.call c k) s a s3

/-- Nobody else is active. -/
def alone (s s' : Spec.State) : Prop := s' = s

/-- Others may do anything. -/
def busy (_ _ : Spec.State) : Prop := True

/-- The shard of `key` is locked by this command (between `pogocache_begin` and `pogocache_end`): others can only change keys of other
shards. -/
def held (env : Spec.Env) (key : Bytes) (s s' : Spec.State) : Prop :=
  s'.tok (env.grp key) = s.tok (env.grp key) ∧ ∀ k, env.grp k = env.grp key → s'.dict k = s.dict k

theorem runs_ret {env : Spec.Env} {I : Spec.State → Spec.State → Prop} {oom : Bool} {now : Int} {α : Type} {a b : α} {s s' : Spec.State}
    (h : Runs env I oom now (.ret a) s b s') : b = a ∧ s' = s := by cases h; exact ⟨rfl, rfl⟩

theorem runs_call {env : Spec.Env} {I : Spec.State → Spec.State → Prop} {oom : Bool} {now : Int} {α : Type} {c : Spec.Call}
    {k : Spec.Reply → Prog α} {a : α} {s s3 : Spec.State} (h : Runs env I oom now (.call c k) s a s3) :
    ∃ s1 r s2, I s s1 ∧ Spec.Step env oom now c s1 r s2 ∧ Runs env I oom now (k r) s2 a s3 := by
  cases h with
  | call h1 h2 h3 => exact ⟨_, _, _, h1, h2, h3⟩

/-- The calls a program can make have 64-bit arguments. -/
def Prog.ok {α : Type} : Prog α → Prop
  | .ret _ => True
  | .call c k => (match c with | .store a => Num.IsI64 a.ttl | _ => True) ∧ ∀ r, (k r).ok

/-- Running a program on the model of the cache is one of the runs on the dictionary, without interference.  (`abort` is `xmalloc` giving
up, see `Verif.Shard`.) -/
theorem prog_refines {α : Type} {c : Ctx} (hv : c.Valid) {n : Nat} (hn : 0 < n) (mems : Nat → Nat → Mem) (oom : Bool) (now : Int)
    (h0 : 0 < now) (h1 : Num.IsI64 now) (hmem : oom = false → ∀ i j, mems i j = ⟨true, true, true⟩)
    (hent : ∀ i j, (mems i j).ent = true) (htbl : ∀ i j, (mems i j).tbl = true)
    (p : Prog α) (hp : p.ok) (i : Nat) (shs : Shards) (h : AllInv c n shs) :
    (∃ a shs', p.exec c n mems now i shs = .val (a, shs') ∧ AllInv c n shs' ∧
      (NoWrap n shs' → NoWrap n shs ∧ ∀ now0 st, now0 ≤ now → R c n now0 shs st → ∃ st', R c n now shs' st' ∧
        Runs ⟨c.usecas, c.noevict, shardIdx c n⟩ alone oom now p st a st')) ∨
    p.exec c n mems now i shs = .abort true := by
  induction p generalizing i shs with
  | ret a =>
    left
    refine ⟨a, shs, rfl, h, fun hnw => ⟨hnw, fun now0 st hle hR => ⟨st, hR.later hle, .ret a st⟩⟩⟩
  | call op k ih =>
    have hok : CallOk (mems i) oom now op := by
      refine ⟨h0, h1, fun ho j => hmem ho i j, ?_⟩
      have := hp.1
      cases op with
      | store a => exact ⟨this, hent i⟩
      | clear one => exact htbl i
      | _ => trivial
    rw [Prog.exec]
    rcases exec_refines hv hn (mems i) oom now op h hok with ⟨r, hr, hA, hspec⟩ | hab
    · rw [hr]
      simp only [Out.bind]
      rcases ih (reply r) (hp.2 _) (i + 1) r.shs hA with ⟨a, shs', hx, hA', hs'⟩ | hab
      · left
        refine ⟨a, shs', hx, hA', ?_⟩
        intro hnw
        obtain ⟨hnw1, hs2⟩ := hs' hnw
        obtain ⟨hnw0, hs1⟩ := hspec hnw1
        refine ⟨hnw0, ?_⟩
        intro now0 st hle hR
        obtain ⟨st1, hR1, hstep⟩ := hs1 now0 st hle hR
        obtain ⟨st2, hR2, hruns⟩ := hs2 now st1 (le_refl _) hR1
        exact ⟨st2, hR2, .call rfl hstep hruns⟩
      · exact Or.inr hab
    · right
      rw [hab]
      rfl

/-- Less interference, fewer runs. -/
theorem Runs.mono {env : Spec.Env} {I J : Spec.State → Spec.State → Prop} (hIJ : ∀ s s', I s s' → J s s') {oom : Bool} {now : Int}
    {α : Type} {p : Prog α} {s s' : Spec.State} {a : α} (h : Runs env I oom now p s a s') : Runs env J oom now p s a s' := by
  induction h with
  | ret a s => exact .ret a s
  | call h1 h2 _ ih => exact .call (hIJ _ _ h1) h2 ih

theorem alone_held (env : Spec.Env) (key : Bytes) (s s' : Spec.State) (h : alone s s') : held env key s s' := by
  cases h
  exact ⟨rfl, fun _ _ => rfl⟩

end Verif.Cmd
