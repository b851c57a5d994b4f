import Mathlib.Tactic.Common
import Verif.Mix.Ends
import Verif.Mix.Examples

/-!
C116, C117: concrete cases.
-/

namespace Verif.Mix.Example

open Verif.Num Verif.Resp Verif.Cmd Verif.Cache Verif.Shard Verif.Map Verif.Many Verif.Many.Example Function

/-- Which of the first four clients are idle, which of them can go on, and whether no counter has wrapped. -/
def ended (sched : List Nat) : Option (List Bool × List Bool × Bool × List Nat) :=
  (runSched (Mix.server ctx4 4 kind [] Wire.Example.sys clock addr) sched
    (Conc.start (fun t => (t, Mix.opened (kind t) [] Wire.Example.sys (clock t) (chunks t))) (newCache ctx4)) []).map fun x =>
    ((List.range 4).map (fun t => match (x.1.loc t).2.job with | .val none => true | _ => false),
      (List.range 4).map (fun t => (Conc.stepFn (Mix.server ctx4 4 kind [] Wire.Example.sys clock addr) t x.1).isSome), noWrapB 4 x.1.mem, x.2)

/-- There are no other clients. -/
theorem few (t : Nat) (ht : 4 ≤ t) : chunks t = [] := by
  unfold chunks four two
  rw [if_neg (by omega), if_neg (by omega), if_neg (by omega), if_neg (by omega)]

/-- An outcome in which all have ended is that of an execution that has ended. -/
theorem ended_exec {sched : List Nat} {h : List Nat} (ho : ended sched = some ([true, true, true, true], [false, false, false, false], true, h)) :
    ∃ s, Conc.Exec (Mix.server ctx4 4 kind [] Wire.Example.sys clock addr) (fun t => (t, Mix.opened (kind t) [] Wire.Example.sys (clock t) (chunks t))) (newCache ctx4) s h ∧
      NoWrap 4 s.mem ∧ (∀ t, (s.loc t).2.job ≠ .abort true) ∧ ∀ t b s', ¬ Conc.Step (Mix.server ctx4 4 kind [] Wire.Example.sys clock addr) t s b s' := by
  unfold ended at ho
  rw [Option.map_eq_some_iff] at ho
  obtain ⟨⟨s, h'⟩, h1, h2⟩ := ho
  simp only [Prod.mk.injEq] at h2
  obtain ⟨g1, g2, g3, rfl⟩ := h2
  have he := runSched_exec .start h1
  refine ⟨s, he, noWrapB_iff.1 g3, fun t hj => ?_, fun t b s' hst => ?_⟩
  · by_cases ht : t < 4
    · have := List.mem_map_of_mem (f := fun t => match (s.loc t).2.job with | .val none => true | _ => false) (List.mem_range.2 ht)
      rw [g1] at this
      simp [hj] at this
    · have := (Mix.silent he (t := t) (few t (by omega))).1.1
      rw [this] at hj
      cases hj
  · by_cases ht : t < 4
    · have := List.mem_map_of_mem (f := fun t => (Conc.stepFn (Mix.server ctx4 4 kind [] Wire.Example.sys clock addr) t s).isSome) (List.mem_range.2 ht)
      rw [g2] at this
      simp at this
      exact Conc.stepFn_complete hst this
    · exact (Mix.silent he (t := t) (few t (by omega))).2 _ _ hst

/-- The four clients, with the INCR of the RESP client in between the commands of the memcache client. -/
def whole : List Nat := List.replicate 10 0 ++ List.replicate 6 1 ++ List.replicate 10 0 ++ List.replicate 5 2 ++ List.replicate 32 3

/-- Hypotheses of `all_answered`, `all_end` and `all_finish`: four clients; after all has been done nothing can happen any more.  After the first step of the RESP client, whose INCR takes the
lock of the shard of its key, the other clients, whose keys are in the same shard, can do nothing. -/
example : ctx4.Valid ∧ ctx4.usecas = true ∧ AllInv ctx4 4 (newCache ctx4) ∧ R ctx4 4 0 (newCache ctx4) ⟨fun _ => none, fun _ => 1⟩ ∧
    (∀ b ∈ Wire.Example.sys.version, 32 ≤ b) ∧ (∀ t i, Mix.Fine (kind t) (clock t i)) ∧ (∀ t i, 0 ≤ (clock t i).now) ∧ Mix.Clients [] kind asks chunks wire ∧
    (Mix.server ctx4 4 kind [] Wire.Example.sys clock addr).Ok ∧ (∀ t, 4 ≤ t → chunks t = []) ∧
    (∃ s, Conc.Exec (Mix.server ctx4 4 kind [] Wire.Example.sys clock addr) (fun t => (t, Mix.opened (kind t) [] Wire.Example.sys (clock t) (chunks t))) (newCache ctx4) s
      [0, 0, 1, 0, 0, 2, 3, 3, 3, 3, 3, 3] ∧ NoWrap 4 s.mem ∧ (∀ t, (s.loc t).2.job ≠ .abort true) ∧
      ∀ t b s', ¬ Conc.Step (Mix.server ctx4 4 kind [] Wire.Example.sys clock addr) t s b s') ∧
    (ended [1]).map (·.2.1) = some [false, true, false, false] :=
  ⟨ctx4_valid, rfl, allInv_new ctx4_valid 4, R_new ctx4 4 0, by decide, fine, late, clients, addr_ok, few, ended_exec (sched := whole) (by decide +kernel), by decide +kernel⟩

end Verif.Mix.Example
