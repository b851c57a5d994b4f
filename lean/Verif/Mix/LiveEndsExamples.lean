import Mathlib.Tactic.Common
import Verif.Mix.LiveEnds
import Verif.Mix.LiveExamples
import Verif.Mix.EndsExamples

/-!
C125: concrete cases.
-/

namespace Verif.Mix.Example

open Verif.Num Verif.Resp Verif.Cmd Verif.Cache Verif.Shard Verif.Map Verif.Many Verif.Many.Example Function

/-- Which of the first three threads are idle, which of them can go on, and whether no counter has wrapped. -/
def liveEnded (k : Many.Kind) (sched : List Nat) : Option (List Bool × List Bool × Bool × List Nat) :=
  (runSched (Mix.liveServer ctx4 4 kind [] Wire.Example.sys clock addr) sched
    (Conc.start (Mix.liveStart kind [] Wire.Example.sys clock wire3 (chorer k)) (newCache ctx4)) []).map fun x =>
    ((List.range 3).map (fun t => match x.1.loc t with | .inl l => (match l.2.job with | .val none => true | _ => false) | .inr w => w.todo.isEmpty),
      (List.range 3).map (fun t => (Conc.stepFn (Mix.liveServer ctx4 4 kind [] Wire.Example.sys clock addr) t x.1).isSome), noWrapB 4 x.1.mem, x.2)

/-- There are no other threads. -/
theorem live_few (k : Many.Kind) (t : Nat) (ht : 3 ≤ t) : (chorer k t = none ∧ wire3 t = []) ∨ chorer k t = some [] := by
  left
  unfold chorer wire3 two
  rw [if_neg (by omega), if_neg (by omega), if_neg (by omega)]
  exact ⟨rfl, rfl⟩

/-- An outcome in which all have ended is that of an execution that has ended. -/
theorem live_ended_exec {k : Many.Kind} {sched : List Nat} {h : List Nat} (ho : liveEnded k sched = some ([true, true, true], [false, false, false], true, h)) :
    ∃ s, Conc.Exec (Mix.liveServer ctx4 4 kind [] Wire.Example.sys clock addr) (Mix.liveStart kind [] Wire.Example.sys clock wire3 (chorer k)) (newCache ctx4) s h ∧
      NoWrap 4 s.mem ∧ (∀ t l, s.loc t = .inl l → l.2.job ≠ .abort true) ∧ ∀ t b s', ¬ Conc.Step (Mix.liveServer ctx4 4 kind [] Wire.Example.sys clock addr) t s b s' := by
  unfold liveEnded at ho
  rw [Option.map_eq_some_iff] at ho
  obtain ⟨⟨s, h'⟩, h1, h2⟩ := ho
  simp only [Prod.mk.injEq] at h2
  obtain ⟨g1, g2, g3, rfl⟩ := h2
  have he := runSched_exec .start h1
  refine ⟨s, he, noWrapB_iff.1 g3, fun t l hl hj => ?_, fun t b s' hst => ?_⟩
  · by_cases ht : t < 3
    · have := List.mem_map_of_mem (f := fun t => match s.loc t with | .inl l => (match l.2.job with | .val none => true | _ => false) | .inr w => w.todo.isEmpty) (List.mem_range.2 ht)
      rw [g1] at this
      simp [hl, hj] at this
    · have := (Mix.live_silent he (t := t) (live_few k t (by omega))).1.1
      rw [hl] at this
      have e : l.2.job = .val none := this
      rw [e] at hj
      cases hj
  · by_cases ht : t < 3
    · have := List.mem_map_of_mem (f := fun t => (Conc.stepFn (Mix.liveServer ctx4 4 kind [] Wire.Example.sys clock addr) t s).isSome) (List.mem_range.2 ht)
      rw [g2] at this
      simp at this
      exact Conc.stepFn_complete hst this
    · exact (Mix.live_silent he (t := t) (live_few k t (by omega))).2 _ _ hst

/-- Hypotheses of `live_answered`, `live_end` and `live_finish`: a client and a flush; after all has been done nothing can happen any more.  When the flush has locked the shard of the key,
the client can do nothing; and the other way round. -/
theorem live_ends_case : ctx4.Valid ∧ ctx4.usecas = true ∧ AllInv ctx4 4 (newCache ctx4) ∧ R ctx4 4 0 (newCache ctx4) ⟨fun _ => none, fun _ => 1⟩ ∧
    (∀ b ∈ Wire.Example.sys.version, 32 ≤ b) ∧ (∀ t i, Mix.Fine (kind t) (clock t i)) ∧ (∀ t i, 0 ≤ (clock t i).now) ∧ Mix.Clients [] kind asks3 wire3 wire3 ∧
    (∀ t l, chorer .clear t = some l → ∀ x ∈ l, x.shard < 4 ∧ 0 ≤ x.now) ∧ (Mix.liveServer ctx4 4 kind [] Wire.Example.sys clock addr).Ok ∧
    (∀ t, 3 ≤ t → (chorer .clear t = none ∧ wire3 t = []) ∨ chorer .clear t = some []) ∧
    (∃ s, Conc.Exec (Mix.liveServer ctx4 4 kind [] Wire.Example.sys clock addr) (Mix.liveStart kind [] Wire.Example.sys clock wire3 (chorer .clear)) (newCache ctx4) s [0, 0, 2, 0] ∧
      NoWrap 4 s.mem ∧ (∀ t l, s.loc t = .inl l → l.2.job ≠ .abort true) ∧ ∀ t b s', ¬ Conc.Step (Mix.liveServer ctx4 4 kind [] Wire.Example.sys clock addr) t s b s') ∧
    (liveEnded .clear [2]).map (·.2.1) = some [false, false, true] ∧ (liveEnded .clear [0]).map (·.2.1) = some [true, false, false] :=
  ⟨ctx4_valid, rfl, allInv_new ctx4_valid 4, R_new ctx4 4 0, by decide, fine, late, clients3, chorer_work .clear, live_ok, live_few .clear,
    live_ended_exec (sched := sched3) (by decide +kernel), by decide +kernel, by decide +kernel⟩

/-- The case, by the theorem: the client has got three replies, and the flush is done. -/
example : ∃ ds rs, ds.map Did.who = [0, 0, 2, 0] ∧ (∃ ps m, LiveStory Wire.Example.sys.version clock asks3 (shardIdx ctx4 4)
    (McWire.ofState (shardIdx ctx4 4) ⟨fun _ => none, fun _ => 1⟩) ds rs ps m) ∧ (∃ tail, Received (wire3 0) (wire3 0).flatten (rs 0).length tail) ∧
    ds.filterMap (Did.choreOf 2) ≠ [] := by
  obtain ⟨a1, a2, a3, a4, a5, a6, a7, a8, a9, a10, _, ⟨s, b1, b2, b3, b4⟩, _⟩ := live_ends_case
  obtain ⟨ds, rs, ps, m, g1, g2, g3, g4⟩ := Mix.live_answered a1 a2 (by decide) a3 a4 (by intro k it hk; cases hk) a5 a6 a7 a8 a9 a10 b1 b3 b4 b2
  obtain ⟨_, _, _, _, g5⟩ := g3 0 rfl
  obtain ⟨w, _, g6, g7⟩ := g4 2 _ rfl
  refine ⟨ds, rs, g1, ⟨ps, m, g2⟩, g5, fun hc => ?_⟩
  rw [hc] at g7
  cases hw : w.shown with
  | nil => rw [hw] at g6; cases g6
  | cons x xs => rw [hw] at g7; cases g7

end Verif.Mix.Example
