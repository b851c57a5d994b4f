import Mathlib.Tactic.Common
import Mathlib.Logic.Function.Basic

/-!
C21: reference counts of entries.

Entries are named by numbers that are never reused (the allocator may reuse an address only after it was freed, which
is what the theorems are about).  Three kinds of owners have one count each: the tables, operations that have an entry
in hand, and users of the API.
-/

namespace Verif.Conc.Refs

open Function

/-- State of all entries.
* `made`: allocated by `entry_new`;
* `rc`: the field `rc` of `struct entry` (`/repo/src/pogocache.c:321`);
* `table`: number of buckets that point to the entry;
* `hand`: references in local variables of operations that will insert or free the entry;
* `user`: references handed out and not yet released;
* `dying`: threads between the decrement to zero and the call of `free` (`/repo/src/pogocache.c:639-642`);
* `freed`: number of calls of `free` on the entry. -/
structure State where
  made : Nat → Bool
  rc : Nat → Int
  table : Nat → Nat
  hand : Nat → Nat
  user : Nat → Nat
  dying : Nat → Nat
  freed : Nat → Nat

/-- The steps.  Each is atomic; any interleaving of the steps of any number of threads is an execution. -/
inductive Step : State → State → Prop
  /-- `entry_new`, `/repo/src/pogocache.c:561` (`atomic_init(&entry->rc, 1)`): the operation has the entry in hand. -/
  | new {s : State} {e : Nat} : s.made e = false →
      Step s { s with made := update s.made e true, rc := update s.rc e 1, hand := update s.hand e 1 }
  /-- The entry in hand goes into a bucket (`map_insert`, `/repo/src/pogocache.c:880-916`; `set_entry` in `loadop` 1439). -/
  | insert {s : State} {e : Nat} : 0 < s.hand e →
      Step s { s with hand := update s.hand e (s.hand e - 1), table := update s.table e (s.table e + 1) }
  /-- The operation takes the entry out of its bucket (`delbkt`, `map_delete`, replacement in `map_insert`, the old table in
  `clearop`; lines 950-1016, 1418, 1439, 1688, 1710, 1770, 1926, 1986-2015). -/
  | remove {s : State} {e : Nat} : 0 < s.table e →
      Step s { s with table := update s.table e (s.table e - 1), hand := update s.hand e (s.hand e + 1) }
  /-- `pogocache_entry_retain`/`entry_clone` (`/repo/src/pogocache.c:645-648,2105-2112`): by the cursor scan on an entry of
  the table (line 1777), in a callback on an entry in a table or in hand, or by a user who has a reference already. -/
  | retain {s : State} {e : Nat} : 0 < s.table e + s.hand e + s.user e →
      Step s { s with rc := update s.rc e (s.rc e + 1), user := update s.user e (s.user e + 1) }
  /-- First half of `entry_free` by an operation (lines 1095, 1420, 1442, 1483, 1506, 1567, 1599, 1607, 1631, 1643, 1690, 1712,
  1772, 1928, 1990, 2001, 2038): the atomic decrement; the old value decides. -/
  | drop {s : State} {e : Nat} : 0 < s.hand e →
      Step s { s with hand := update s.hand e (s.hand e - 1), rc := update s.rc e (s.rc e - 1),
                      dying := update s.dying e (s.dying e + if s.rc e > 1 then 0 else 1) }
  /-- First half of `entry_free` by a user, `pogocache_entry_release` (`/repo/src/pogocache.c:2114-2120`). -/
  | release {s : State} {e : Nat} : 0 < s.user e →
      Step s { s with user := update s.user e (s.user e - 1), rc := update s.rc e (s.rc e - 1),
                      dying := update s.dying e (s.dying e + if s.rc e > 1 then 0 else 1) }
  /-- Second half: `ctx->free(entry)`, `/repo/src/pogocache.c:642`. -/
  | free {s : State} {e : Nat} : 0 < s.dying e →
      Step s { s with dying := update s.dying e (s.dying e - 1), freed := update s.freed e (s.freed e + 1) }

/-- Nothing allocated. -/
def start : State := ⟨fun _ => false, fun _ => 0, fun _ => 0, fun _ => 0, fun _ => 0, fun _ => 0, fun _ => 0⟩

inductive Reach : State → Prop
  | start : Reach start
  | step {s s' : State} : Reach s → Step s s' → Reach s'

/-- The invariant for one entry. -/
structure Ok (s : State) (e : Nat) : Prop where
  count : s.rc e = (s.table e + s.hand e + s.user e : Nat)
  unmade : s.made e = false → s.table e + s.hand e + s.user e = 0 ∧ s.dying e + s.freed e = 0
  held : s.made e = true → s.dying e + s.freed e = if s.table e + s.hand e + s.user e = 0 then 1 else 0

theorem reach_ok {s : State} (h : Reach s) (e : Nat) : Ok s e := by
  induction h with
  | start => exact ⟨by simp [Refs.start], by simp [Refs.start], by simp [Refs.start]⟩
  | @step s s' _ hs ih =>
    obtain ⟨h1, h2, h3⟩ := ih
    cases hs with
    | @new x hm =>
      by_cases hx : e = x
      · subst hx
        obtain ⟨a, b⟩ := h2 hm
        refine ⟨?_, ?_, ?_⟩
        · simp only [update_self]; push_cast; omega
        · simp
        · intro _; simp only [update_self]; rw [if_neg (by omega)]; omega
      · refine ⟨?_, ?_, ?_⟩ <;> simp only [update_of_ne hx] <;> assumption
    | @insert x hp =>
      by_cases hx : e = x
      · subst hx
        refine ⟨?_, ?_, ?_⟩
        · simp only [update_self]; rw [h1]; omega
        · simp only [update_self]; intro hm; have := h2 hm; omega
        · simp only [update_self]; intro hm; have := h3 hm; split at this <;> split <;> omega
      · refine ⟨?_, ?_, ?_⟩ <;> simp only [update_of_ne hx] <;> assumption
    | @remove x hp =>
      by_cases hx : e = x
      · subst hx
        refine ⟨?_, ?_, ?_⟩
        · simp only [update_self]; rw [h1]; omega
        · simp only [update_self]; intro hm; have := h2 hm; omega
        · simp only [update_self]; intro hm; have := h3 hm; split at this <;> split <;> omega
      · refine ⟨?_, ?_, ?_⟩ <;> simp only [update_of_ne hx] <;> assumption
    | @retain x hp =>
      by_cases hx : e = x
      · subst hx
        refine ⟨?_, ?_, ?_⟩
        · simp only [update_self]; rw [h1]; omega
        · simp only [update_self]; intro hm; have := h2 hm; omega
        · simp only [update_self]; intro hm; have := h3 hm; split at this <;> split <;> omega
      · refine ⟨?_, ?_, ?_⟩ <;> simp only [update_of_ne hx] <;> assumption
    | @drop x hp =>
      by_cases hx : e = x
      · subst hx
        refine ⟨?_, ?_, ?_⟩
        · simp only [update_self]; rw [h1]; omega
        · simp only [update_self]; intro hm; have := h2 hm; omega
        · simp only [update_self]; intro hm; have := h3 hm; rw [h1]; split at this <;> split <;> split <;> omega
      · refine ⟨?_, ?_, ?_⟩ <;> simp only [update_of_ne hx] <;> assumption
    | @release x hp =>
      by_cases hx : e = x
      · subst hx
        refine ⟨?_, ?_, ?_⟩
        · simp only [update_self]; rw [h1]; omega
        · simp only [update_self]; intro hm; have := h2 hm; omega
        · simp only [update_self]; intro hm; have := h3 hm; rw [h1]; split at this <;> split <;> split <;> omega
      · refine ⟨?_, ?_, ?_⟩ <;> simp only [update_of_ne hx] <;> assumption
    | @free x hp =>
      by_cases hx : e = x
      · subst hx
        refine ⟨?_, ?_, ?_⟩
        · exact h1
        · simp only [update_self]; intro hm; have := h2 hm; omega
        · simp only [update_self]; intro hm; have := h3 hm; split at this <;> split <;> omega
      · refine ⟨?_, ?_, ?_⟩ <;> simp only [update_of_ne hx] <;> assumption

/-- **C21.**  In every execution: an entry a user holds a reference to, or that a table or an operation refers to, has not
been given back to the allocator and is not about to be; no entry is ever given back twice; and an entry nobody refers to
any more has been given back, or some thread is just about to. -/
theorem entries_freed_exactly_once {s : State} (h : Reach s) (e : Nat) (hm : s.made e = true) :
    (0 < s.user e ∨ 0 < s.table e ∨ 0 < s.hand e → s.freed e = 0 ∧ s.dying e = 0) ∧
    s.freed e ≤ 1 ∧
    (s.user e = 0 ∧ s.table e = 0 ∧ s.hand e = 0 → s.freed e + s.dying e = 1) := by
  have h3 := (reach_ok h e).held hm
  split at h3
  · exact ⟨by omega, by omega, by omega⟩
  · exact ⟨by omega, by omega, by omega⟩

/-- The count never lets a thread free an entry twice at once, nor go below zero. -/
theorem count_is_number_of_references {s : State} (h : Reach s) (e : Nat) :
    s.rc e = (s.table e + s.hand e + s.user e : Nat) ∧ s.dying e ≤ 1 := by
  have h1 := reach_ok h e
  refine ⟨h1.count, ?_⟩
  cases hm : s.made e with
  | false => have := h1.unmade hm; omega
  | true => have := h1.held hm; split at this <;> omega

/-- An entry is stored, handed out by a scan, deleted while the user still has it, and released. -/
example : ∃ s s', Reach s ∧ s.made 7 = true ∧ s.user 7 = 1 ∧ s.table 7 = 0 ∧ s.freed 7 = 0 ∧
    Reach s' ∧ s'.made 7 = true ∧ s'.user 7 = 0 ∧ s'.freed 7 = 1 := by
  have h1 : Reach _ := .step .start (.new (e := 7) rfl)
  have h2 : Reach _ := .step h1 (.insert (e := 7) (by decide))
  have h3 : Reach _ := .step h2 (.retain (e := 7) (by decide))
  have h4 : Reach _ := .step h3 (.remove (e := 7) (by decide))
  have h5 : Reach _ := .step h4 (.drop (e := 7) (by decide))
  have h6 : Reach _ := .step h5 (.release (e := 7) (by decide))
  have h7 : Reach _ := .step h6 (.free (e := 7) (by decide))
  exact ⟨_, _, h5, by decide, by decide, by decide, by decide, h7, by decide, by decide, by decide⟩

end Verif.Conc.Refs
