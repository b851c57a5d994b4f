import Mathlib.Data.Finset.Card
import Mathlib.Data.List.Count
import Mathlib.Tactic.Common
import Verif.Basic

/-!
C113: the allocator of the server, `/repo/src/xmalloc.c`: what it counts, and what it does when there is no memory.
-/

namespace Verif.Main

/-! ### Model -/

/-- What a thread does: nothing, or it is about to change the counter, `/repo/src/xmalloc.c:149, 167`. -/
inductive Doing where
  | idle
  | counting (up : Bool)
deriving DecidableEq

/-- The blocks in use, the counter `nallocs` (`/repo/src/xmalloc.c:49`), what the threads do, and whether the process has ended. -/
structure Alloc where
  live : Finset Nat
  n : Int
  doing : Nat → Doing
  dead : Bool

/-- What a thread asks for, `/repo/src/xmalloc.c:146, 153, 162`; `none` is the NULL pointer. -/
inductive Want where
  | malloc
  | realloc (p : Option Nat)
  | free (p : Option Nat)

/-- One step of a thread: the underlying allocator (`got` is what it gives, `none` for NULL), with the end of the process by `check_ptr`, or the change of the counter, which is
atomic.  `xmalloc`, `xrealloc` and `xfree`, `/repo/src/xmalloc.c:59-69, 91-96, 146-168`, with `usetrackallocs`.  The second component is the pointer the caller gets. -/
def Alloc.step (s : Alloc) (t : Nat) (w : Want) (got : Option Nat) : Alloc × Option Nat :=
  match s.doing t with
  | .counting up => ({ s with n := if up then s.n + 1 else s.n - 1, doing := Function.update s.doing t .idle }, none)
  | .idle =>
    match w with
    | .malloc | .realloc none =>
      match got with
      | none => ({ s with dead := true }, none)
      | some q => ({ s with live := insert q s.live, doing := Function.update s.doing t (.counting true) }, some q)
    | .realloc (some p) =>
      match got with
      | none => ({ s with dead := true }, none)
      | some q => ({ s with live := insert q (s.live.erase p) }, some q)
    | .free none => (s, none)
    | .free (some p) => ({ s with live := s.live.erase p, doing := Function.update s.doing t (.counting false) }, none)

/-- At the start nothing is in use; `usetrackallocs` is set before anything is allocated, `/repo/src/main.c:605-609`. -/
def Alloc.start : Alloc := ⟨∅, 0, fun _ => .idle, false⟩

/-! ### Specification -/

/-- The contract of the underlying allocator and of its callers: a new block is none of those in use, and only blocks in use are freed or changed. -/
def Fair (s : Alloc) (t : Nat) (w : Want) (got : Option Nat) : Prop :=
  s.dead = false ∧ (s.doing t = .idle →
    match w with
    | .malloc | .realloc none => ∀ q ∈ got, q ∉ s.live
    | .realloc (some p) => p ∈ s.live ∧ ∀ q ∈ got, q ∉ s.live.erase p
    | .free none => True
    | .free (some p) => p ∈ s.live)

/-- What can happen with the threads `ts`. -/
inductive Happens (ts : List Nat) : Alloc → Prop
  | start : Happens ts .start
  | step {s : Alloc} {t : Nat} {w : Want} {got : Option Nat} : Happens ts s → t ∈ ts → Fair s t w got → Happens ts (s.step t w got).1

/-- How many threads are about to change the counter. -/
def pending (ts : List Nat) (s : Alloc) (up : Bool) : Nat := (ts.dedup.filter fun t => s.doing t = .counting up).length

/-! ### Proofs -/

theorem pending_set {ts : List Nat} {s : Alloc} {t : Nat} (ht : t ∈ ts) (hi : s.doing t = .idle) (up b : Bool) (s' : Alloc) (hd : s'.doing = Function.update s.doing t (.counting up)) :
    pending ts s' b = pending ts s b + if b = up then 1 else 0 := by
  unfold pending
  rw [hd, ← List.countP_eq_length_filter, ← List.countP_eq_length_filter]
  have hn : ts.dedup.Nodup := List.nodup_dedup ts
  have hm : t ∈ ts.dedup := List.mem_dedup.2 ht
  obtain ⟨l1, l2, hl⟩ := List.append_of_mem hm
  rw [hl] at hn ⊢
  have h1 : t ∉ l1 := fun hc => (List.disjoint_of_nodup_append hn) hc (by simp)
  have h2 : t ∉ l2 := (List.nodup_cons.1 (List.nodup_append.1 hn).2.1).1
  have same : ∀ l : List Nat, t ∉ l → l.countP (fun x => decide (Function.update s.doing t (.counting up) x = .counting b)) = l.countP fun x => decide (s.doing x = .counting b) := by
    intro l hl
    refine List.countP_congr fun x hx => ?_
    rw [Function.update_of_ne (by rintro rfl; exact hl hx)]
  rw [List.countP_append, List.countP_append, List.countP_cons, List.countP_cons, same l1 h1, same l2 h2, Function.update_self, hi]
  cases up <;> cases b <;> simp <;> omega

theorem pending_clear {ts : List Nat} {s : Alloc} {t : Nat} (ht : t ∈ ts) {up : Bool} (hi : s.doing t = .counting up) (b : Bool) (s' : Alloc) (hd : s'.doing = Function.update s.doing t .idle) :
    pending ts s b = pending ts s' b + if b = up then 1 else 0 := by
  refine pending_set (s := s') ht (by rw [hd, Function.update_self]) up b s ?_
  rw [hd, Function.update_idem]
  funext x
  by_cases hx : x = t
  · subst hx; rw [Function.update_self, hi]
  · rw [Function.update_of_ne hx]

/-- **C113.**  At any time the counter is the number of blocks in use, but for the threads that are about to change it: exact whenever no thread is in the middle of a call. -/
theorem allocs_exact {ts : List Nat} {s : Alloc} (h : Happens ts s) : s.n + pending ts s true = s.live.card + pending ts s false := by
  induction h with
  | start => simp [Alloc.start, pending]
  | @step s t w got h ht hf ih =>
    obtain ⟨hd, hf⟩ := hf
    unfold Alloc.step
    cases hdo : s.doing t with
    | counting up =>
      simp only []
      have h1 := pending_clear ht hdo true { s with n := if up then s.n + 1 else s.n - 1, doing := Function.update s.doing t .idle } rfl
      have h2 := pending_clear ht hdo false { s with n := if up then s.n + 1 else s.n - 1, doing := Function.update s.doing t .idle } rfl
      cases up <;> simp only [Bool.false_eq_true, if_false, if_true, reduceCtorEq] at h1 h2 ⊢ <;> omega
    | idle =>
      have hf := hf hdo
      have hset : ∀ (up : Bool) (l : Finset Nat) (b : Bool), pending ts { s with live := l, doing := Function.update s.doing t (.counting up) } b = pending ts s b + if b = up then 1 else 0 :=
        fun up l b => pending_set ht hdo up b _ rfl
      have hnew : ∀ q, q ∉ s.live → ({ s with live := insert q s.live, doing := Function.update s.doing t (.counting true) } : Alloc).n +
          pending ts { s with live := insert q s.live, doing := Function.update s.doing t (.counting true) } true =
          ((insert q s.live).card : Int) + pending ts { s with live := insert q s.live, doing := Function.update s.doing t (.counting true) } false := by
        intro q hq
        have h1 := hset true (insert q s.live) true
        have h2 := hset true (insert q s.live) false
        rw [Finset.card_insert_of_notMem hq, h1, h2]
        simp
        omega
      match w, got, hf with
      | .malloc, none, _ => exact ih
      | .malloc, some q, hf => exact hnew q (hf q rfl)
      | .realloc none, none, _ => exact ih
      | .realloc none, some q, hf => exact hnew q (hf q rfl)
      | .realloc (some p), none, _ => exact ih
      | .realloc (some p), some q, hf =>
        simp only []
        rw [Finset.card_insert_of_notMem (hf.2 q rfl), Finset.card_erase_of_mem hf.1]
        have : 0 < s.live.card := Finset.card_pos.2 ⟨p, hf.1⟩
        have e1 : ∀ b, pending ts { s with live := insert q (s.live.erase p) } b = pending ts s b := fun b => rfl
        rw [e1, e1]
        omega
      | .free none, _, _ => exact ih
      | .free (some p), _, hf =>
        simp only []
        have h1 := hset false (s.live.erase p) true
        have h2 := hset false (s.live.erase p) false
        rw [Finset.card_erase_of_mem hf, h1, h2]
        have : 0 < s.live.card := Finset.card_pos.2 ⟨p, hf⟩
        simp
        omega

theorem quiet_exact {ts : List Nat} {s : Alloc} (h : Happens ts s) (hq : ∀ t ∈ ts, s.doing t = .idle) : s.n = s.live.card := by
  have := allocs_exact h
  have hp : ∀ b, pending ts s b = 0 := by
    intro b
    unfold pending
    rw [List.length_eq_zero_iff, List.filter_eq_nil_iff]
    intro t ht
    rw [hq t (List.mem_dedup.1 ht)]
    simp
  rw [hp, hp] at this
  simpa using this

/-- **C113, what happens without memory.**  Who asks for a block gets one, or the process ends: NULL is never returned.  So the answers "out of memory" of the engine (C14) are
given for the limit (C95) only, and a failure of the underlying allocator ends the server with all that it keeps. -/
theorem never_null (s : Alloc) (t : Nat) (w : Want) (got : Option Nat) (hi : s.doing t = .idle) (hw : w = .malloc ∨ ∃ p, w = .realloc p) :
    (got = none → (s.step t w got).1.dead = true) ∧ ∀ q, got = some q → (s.step t w got).2 = some q ∧ (s.step t w got).1.dead = s.dead := by
  unfold Alloc.step
  rw [hi]
  rcases hw with rfl | ⟨_ | p, rfl⟩
  all_goals
    constructor
    · rintro rfl; rfl
    · rintro q rfl; exact ⟨rfl, rfl⟩

/-! ### Concrete cases -/

/-- Two threads: the first allocates, the second allocates and changes its block while the first is not done yet; then the first is done: one more block than counted. -/
example : ∃ s, Happens [0, 1] s ∧ s.live = {5, 8} ∧ s.n = 1 ∧ pending [0, 1] s true = 1 ∧ pending [0, 1] s false = 0 := by
  have h0 : Happens [0, 1] .start := .start
  have h1 := h0.step (t := 0) (w := .malloc) (got := some 5) (by decide) ⟨rfl, fun _ => by intro q hq; simp [Alloc.start]⟩
  have h2 := h1.step (t := 1) (w := .realloc none) (got := some 7) (by decide) ⟨rfl, fun _ => by intro q hq; cases hq; decide⟩
  have h3 := h2.step (t := 1) (w := .malloc) (got := none) (by decide) ⟨rfl, fun hc => by revert hc; decide⟩
  have h4 := h3.step (t := 1) (w := .realloc (some 7)) (got := some 8) (by decide) ⟨rfl, fun _ => ⟨by decide, by intro q hq; cases hq; decide⟩⟩
  exact ⟨_, h4, by decide, by decide, by decide, by decide⟩

/-- One thread allocates, and frees: exact in between and at the end.  Without memory the process ends. -/
example : (∃ s, Happens [0] s ∧ (∀ t ∈ [0], s.doing t = .idle) ∧ s.live = {5} ∧ s.n = 1) ∧ (Alloc.start.step 0 .malloc none).1.dead = true := by
  have h0 : Happens [0] .start := .start
  have h1 := h0.step (t := 0) (w := .malloc) (got := some 5) (by decide) ⟨rfl, fun _ => by intro q hq; simp [Alloc.start]⟩
  have h2 := h1.step (t := 0) (w := .malloc) (got := none) (by decide) ⟨rfl, fun hc => by revert hc; decide⟩
  exact ⟨⟨_, h2, by decide, by decide, by decide⟩, rfl⟩

end Verif.Main
