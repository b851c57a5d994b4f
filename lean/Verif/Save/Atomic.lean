import Mathlib.Tactic.Common
import Mathlib.Logic.Function.Basic
import Mathlib.Data.List.Perm.Basic
import Verif.Save.Damage

/-!
C29: the steps of `save` against a file system, with crashes.

The file system is the data file and one work file per save; `write` may write any part of what it is given or fail, `rename`
is atomic.  Any number of saves run, one after another or at once (`SAVE` commands of several clients and the save at exit), each
with any number of threads, interleaved in any way; the process is killed at any moment and started again.

Simplifications: work files of different saves have different names (31 random bits, `/repo/src/save.c:150-154`); a killed process
loses no completed write (nothing is said about power failures: the code calls no `fsync`); what a thread writes for a shard is
fixed beforehand as `block i` (any bytes; empty for a shard without entries, `/repo/src/save.c:54-57`).
-/

namespace Verif.Save.Atomic

open Function

/-- A thread of `save` (`struct savectx`, `/repo/src/save.c:39-51`). -/
structure Th where
  /-- shards not yet written (`start`, `count`, the loop variable of `thsave`) -/
  todo : List Nat
  /-- inside the write loop of `flush`: the shard and what is left of its block -/
  cur : Option (Nat × Bytes)
  /-- `ctx->ok` when the thread has ended -/
  ended : Option Bool

/-- Where `save` is. -/
inductive Phase where
  | idle | running | renamed | failed | finished | killed
  deriving DecidableEq

/-- One call of `save`. -/
structure Sv where
  /-- contents of the work file, if it exists -/
  work : Option Bytes
  /-- offset of the descriptor, shared by the threads -/
  pos : Nat
  lock : Option Nat
  nth : Nat
  th : Nat → Th
  phase : Phase

/-- The system: the data file, the saves, and (for the statement only) which saves have renamed their file. -/
structure Sys where
  data : Option Bytes
  sv : Nat → Sv
  log : List Nat

/-- What the saves are to write: number of shards, processors, and the block of each shard. -/
structure Job where
  nshards : Nat
  nprocs : Nat
  block : Nat → Bytes

/-- Number of threads, `/repo/src/save.c:162-169`. -/
def Job.threads (j : Job) (fast : Bool) : Nat := if fast then min j.nprocs j.nshards else 1

/-- The shards of thread `i` of `k`, `/repo/src/save.c:175-190`: `start` is the sum of the earlier counts. -/
def share (nshards k i : Nat) : List Nat :=
  let start := i * (nshards / k)
  let count := if i + 1 = k then nshards - start else nshards / k
  (List.range count).map (start + ·)

/-- `write(2)` of `d` at offset `pos`, over whatever the file holds. -/
def putAt (f : Bytes) (pos : Nat) (d : Bytes) : Bytes := f.take pos ++ d ++ f.drop (pos + d.length)

/-- A step of one save: `SStep j x y r`; `r` is the new contents of the data file if the step renames. -/
inductive SStep (j : Job) : Sv → Sv → Option Bytes → Prop
  /-- lines 150-193: `open` (without `O_TRUNC`) and start of the threads -/
  | start {x : Sv} (fast : Bool) : x.phase = .idle →
      SStep j x ⟨some (x.work.getD []), 0, none, j.threads fast, fun i => ⟨share j.nshards (j.threads fast) i, none, none⟩, .running⟩ none
  /-- line 79: a thread takes the lock for the block of its next shard -/
  | acquire {x : Sv} {t i : Nat} {is : List Nat} : x.phase = .running → t < x.nth → (x.th t).ended = none → (x.th t).cur = none →
      (x.th t).todo = i :: is → x.lock = none →
      SStep j x { x with lock := some t, th := update x.th t ⟨is, some (i, j.block i), none⟩ } none
  /-- lines 80-87: one `write`, of `k` bytes -/
  | write {x : Sv} {t i k : Nat} {d : Bytes} {w : Bytes} : x.phase = .running → t < x.nth → (x.th t).cur = some (i, d) → d ≠ [] →
      k ≤ d.length → x.work = some w →
      SStep j x ⟨some (putAt w x.pos (d.take k)), x.pos + k, x.lock, x.nth,
        update x.th t { x.th t with cur := some (i, d.drop k) }, x.phase⟩ none
  /-- lines 82-84, 88, 91: `write` fails; the thread ends without `ok` -/
  | writeFails {x : Sv} {t i : Nat} {d : Bytes} : x.phase = .running → t < x.nth → (x.th t).cur = some (i, d) → d ≠ [] →
      SStep j x { x with lock := none, th := update x.th t ⟨(x.th t).todo, none, some false⟩ } none
  /-- line 88: the block is written -/
  | release {x : Sv} {t i : Nat} : x.phase = .running → t < x.nth → (x.th t).cur = some (i, []) →
      SStep j x { x with lock := none, th := update x.th t { x.th t with cur := none } } none
  /-- line 141: the thread is done -/
  | threadDone {x : Sv} {t : Nat} : x.phase = .running → t < x.nth → (x.th t).ended = none → (x.th t).cur = none →
      (x.th t).todo = [] → SStep j x { x with th := update x.th t ⟨[], none, some true⟩ } none
  /-- lines 201-217: all threads have ended with `ok`; `rename` -/
  | rename {x : Sv} {w : Bytes} : x.phase = .running → (∀ t < x.nth, (x.th t).ended = some true) → x.work = some w →
      SStep j x { x with work := none, phase := .renamed } (some w)
  /-- lines 201-216: all threads have ended, one without `ok`, or `rename` fails -/
  | fail {x : Sv} : x.phase = .running → (∀ t < x.nth, (x.th t).ended ≠ none) → SStep j x { x with phase := .failed } none
  /-- lines 219-220: `unlink` of the work file -/
  | cleanup {x : Sv} : x.phase = .renamed ∨ x.phase = .failed → SStep j x { x with work := none, phase := .finished } none

/-- Killed processes make no steps any more. -/
def kill (x : Sv) : Sv := if x.phase = .idle then x else { x with phase := .killed }

/-- Steps of the system: of one save, or the process is killed (and later started again: further saves are those still idle). -/
inductive Step (jobs : Nat → Job) : Sys → Sys → Prop
  | save {s : Sys} {a : Nat} {y : Sv} : SStep (jobs a) (s.sv a) y none → Step jobs s { s with sv := update s.sv a y }
  | saveRenames {s : Sys} {a : Nat} {y : Sv} {w : Bytes} : SStep (jobs a) (s.sv a) y (some w) →
      Step jobs s ⟨some w, update s.sv a y, s.log ++ [a]⟩
  | killed {s : Sys} : Step jobs s { s with sv := fun a => kill (s.sv a) }

inductive Reach (jobs : Nat → Job) : Sys → Sys → Prop
  | refl {s : Sys} : Reach jobs s s
  | step {s u v : Sys} : Reach jobs s u → Step jobs u v → Reach jobs s v

/-- Before anything: all saves idle, and no work file is lying around under the name of any of them. -/
def Fresh (s : Sys) : Prop := s.log = [] ∧ ∀ a, (s.sv a).phase = .idle ∧ (s.sv a).work = none

/-! ### Specification -/

/-- A complete file: the block of every shard, once, in some order. -/
def Complete (j : Job) (f : Option Bytes) : Prop :=
  ∃ word : List Nat, word.Perm (List.range j.nshards) ∧ f = some (word.flatMap j.block)

/-! ### The threads share the shards out -/

theorem share_lengths (n k i : Nat) (hi : i < k) :
    (List.range (i + 1)).flatMap (share n k) = List.range (if i + 1 = k then n else (i + 1) * (n / k)) := by
  have hkn : k * (n / k) ≤ n := Nat.mul_div_le n k
  induction i with
  | zero =>
    simp only [Nat.zero_add, List.range_one, List.flatMap_singleton]
    unfold share
    by_cases h : 1 = k
    · simp [← h]
    · simp only [Nat.zero_mul, Nat.zero_add, if_neg h, Nat.one_mul]
      simp
  | succ i ih =>
    rw [List.range_succ, List.flatMap_append, ih (by omega), List.flatMap_singleton, if_neg (by omega)]
    unfold share
    simp only []
    rw [← List.range_add]
    congr 1
    have hle : (i + 1) * (n / k) ≤ n := Nat.le_trans (Nat.mul_le_mul_right _ (by omega)) hkn
    by_cases h : i + 1 + 1 = k
    · rw [if_pos h, if_pos h]; omega
    · rw [if_neg h, if_neg h]; ring

theorem share_all (n k : Nat) (hk : 0 < k) : (List.range k).flatMap (share n k) = List.range n := by
  have := share_lengths n k (k - 1) (by omega)
  rwa [show k - 1 + 1 = k by omega, if_pos rfl] at this

/-! ### Invariant -/

theorem putAt_end (f d : Bytes) : putAt f f.length d = f ++ d := by
  unfold putAt
  rw [List.take_of_length_le (Nat.le_refl _), List.drop_of_length_le (by omega)]
  simp

/-- Work still to be done, over all threads. -/
def left (x : Sv) : List Nat := (List.range x.nth).flatMap fun t => (x.th t).todo

theorem flatMap_congr' {f g : Nat → List Nat} {l : List Nat} (h : ∀ t ∈ l, f t = g t) : l.flatMap f = l.flatMap g := by
  induction l with
  | nil => rfl
  | cons a l ih =>
    rw [List.flatMap_cons, List.flatMap_cons, h a (by simp), ih fun t ht => h t (by simp [ht])]

theorem perm_take {f g : Nat → List Nat} {n t i : Nat} (ht : t < n) (h : f t = i :: g t) (ho : ∀ u, u ≠ t → f u = g u) :
    ((List.range n).flatMap f).Perm (i :: (List.range n).flatMap g) := by
  induction n with
  | zero => omega
  | succ n ih =>
    rw [List.range_succ, List.flatMap_append, List.flatMap_append, List.flatMap_singleton, List.flatMap_singleton]
    by_cases htn : t = n
    · subst htn
      rw [h, flatMap_congr' (f := f) (g := g) (fun u hu => ho u (by simp at hu; omega))]
      exact List.perm_middle
    · rw [ho n (Ne.symm htn)]
      exact (ih (by omega)).append_right _

/-- While a save runs. -/
structure Run (j : Job) (x : Sv) : Prop where
  /-- only the holder of the lock is in the write loop -/
  holder : ∀ t, t < x.nth → (x.th t).cur ≠ none → x.lock = some t
  /-- a thread that ended is not in the loop, and if it was successful has nothing left -/
  over : ∀ t, t < x.nth → ∀ b, (x.th t).ended = some b → (x.th t).cur = none ∧ (b = true → (x.th t).todo = [])
  /-- unless a thread failed, the file holds whole blocks and the part of the one being written -/
  file : (∃ t < x.nth, (x.th t).ended = some false) ∨
    ∃ (done : List Nat) (w part : Bytes), x.work = some w ∧ x.pos = w.length ∧ w = done.flatMap j.block ++ part ∧
      ((part = [] ∧ (∀ t < x.nth, (x.th t).cur = none) ∧ (done ++ left x).Perm (List.range j.nshards)) ∨
        ∃ t < x.nth, ∃ i d, (x.th t).cur = some (i, d) ∧ part ++ d = j.block i ∧ (done ++ i :: left x).Perm (List.range j.nshards))

theorem left_eq {x y : Sv} (hn : x.nth = y.nth) (h : ∀ t, (x.th t).todo = (y.th t).todo) : left x = left y := by
  unfold left
  rw [hn]
  exact flatMap_congr' fun t _ => h t

theorem run_step {j : Job} {x y : Sv} {r : Option Bytes} (hr : Run j x) (hp : x.phase = .running) (hs : SStep j x y r)
    (hy : y.phase = .running) : Run j y := by
  obtain ⟨h1, h2, h3⟩ := hr
  cases hs with
  | start fast hp' => rw [hp] at hp'; simp at hp'
  | rename => simp at hy
  | fail => simp at hy
  | cleanup => simp at hy
  | @acquire t i is _ ht he hc htd hl =>
    have hcur : ∀ u, u < x.nth → (x.th u).cur = none := by
      intro u hu
      by_contra hh
      have := h1 u hu hh
      rw [hl] at this; simp at this
    refine ⟨?_, ?_, ?_⟩
    · intro u hu hcu
      by_cases hut : u = t
      · subst hut; rfl
      · simp only [update_of_ne hut] at hcu
        exact absurd (hcur u hu) hcu
    · intro u hu b hb
      by_cases hut : u = t
      · subst hut; simp only [update_self] at hb; simp at hb
      · simp only [update_of_ne hut] at hb ⊢
        exact h2 u hu b hb
    · rcases h3 with ⟨u, hu, hf⟩ | ⟨done, w, part, hw, hpos, hwe, hq⟩
      · left
        refine ⟨u, hu, ?_⟩
        have hut : u ≠ t := by rintro rfl; rw [he] at hf; simp at hf
        simp only [update_of_ne hut]; exact hf
      · right
        rcases hq with ⟨rfl, _, hperm⟩ | ⟨u, hu, i', d, hcu, _⟩
        · refine ⟨done, w, [], hw, hpos, hwe, Or.inr ⟨t, ht, i, j.block i, by simp, by simp, ?_⟩⟩
          refine List.Perm.trans ?_ hperm
          apply List.Perm.append_left
          refine (perm_take (t := t) ht ?_ ?_).symm
          · simp [htd]
          · intro v hv; simp [update_of_ne hv]
        · rw [hcur u hu] at hcu; simp at hcu
  | @write t i k d w _ ht hc hd hk hw =>
    have hlk := h1 t ht (by rw [hc]; simp)
    refine ⟨?_, ?_, ?_⟩
    · intro u hu hcu
      by_cases hut : u = t
      · subst hut; exact hlk
      · simp only [update_of_ne hut] at hcu
        exact h1 u hu hcu
    · intro u hu b hb
      by_cases hut : u = t
      · subst hut
        simp only [update_self] at hb
        have := (h2 u hu b hb).1
        rw [hc] at this; simp at this
      · simp only [update_of_ne hut] at hb ⊢
        exact h2 u hu b hb
    · rcases h3 with ⟨u, hu, hf⟩ | ⟨done, w', part, hw', hpos, hwe, hq⟩
      · left
        refine ⟨u, hu, ?_⟩
        by_cases hut : u = t
        · subst hut; simp only [update_self]; exact hf
        · simp only [update_of_ne hut]; exact hf
      · right
        rw [hw] at hw'
        obtain rfl : w = w' := by simpa using hw'
        rcases hq with ⟨_, hno, _⟩ | ⟨u, hu, i', d', hcu, hblk, hperm⟩
        · rw [hno t ht] at hc; simp at hc
        · have : u = t := by
            have := h1 u hu (by rw [hcu]; simp)
            rw [hlk] at this; simpa using this.symm
          subst this
          rw [hc] at hcu
          obtain ⟨rfl, rfl⟩ : i = i' ∧ d = d' := by simpa using hcu
          refine ⟨done, w ++ d.take k, part ++ d.take k, ?_, ?_, ?_, Or.inr ⟨u, ht, i, d.drop k, by simp, ?_, ?_⟩⟩
          · simp only; rw [hpos, putAt_end]
          · simp only; rw [hpos, List.length_append, List.length_take]; omega
          · rw [hwe, List.append_assoc]
          · rw [List.append_assoc, List.take_append_drop, hblk]
          · rw [left_eq (y := x)]
            · exact hperm
            · rfl
            · intro v
              by_cases hv : v = u
              · subst hv; simp
              · simp [update_of_ne hv]
  | @writeFails t i d _ ht hc hd =>
    have hlk := h1 t ht (by rw [hc]; simp)
    refine ⟨?_, ?_, ?_⟩
    · intro u hu hcu
      by_cases hut : u = t
      · subst hut; simp at hcu
      · simp only [update_of_ne hut] at hcu
        have := h1 u hu hcu
        rw [hlk] at this; simp at this; exact absurd this.symm hut
    · intro u hu b hb
      by_cases hut : u = t
      · subst hut; simp only [update_self] at hb ⊢; simp at hb; subst hb; simp
      · simp only [update_of_ne hut] at hb ⊢
        exact h2 u hu b hb
    · left; exact ⟨t, ht, by simp⟩
  | @release t i _ ht hc =>
    have hlk := h1 t ht (by rw [hc]; simp)
    refine ⟨?_, ?_, ?_⟩
    · intro u hu hcu
      by_cases hut : u = t
      · subst hut; simp at hcu
      · simp only [update_of_ne hut] at hcu
        have := h1 u hu hcu
        rw [hlk] at this; simp at this; exact absurd this.symm hut
    · intro u hu b hb
      by_cases hut : u = t
      · subst hut; simp only [update_self] at hb ⊢; exact ⟨by simp, (h2 u hu b hb).2⟩
      · simp only [update_of_ne hut] at hb ⊢
        exact h2 u hu b hb
    · rcases h3 with ⟨u, hu, hf⟩ | ⟨done, w, part, hw, hpos, hwe, hq⟩
      · left
        refine ⟨u, hu, ?_⟩
        by_cases hut : u = t
        · subst hut; simp only [update_self]; exact hf
        · simp only [update_of_ne hut]; exact hf
      · right
        rcases hq with ⟨_, hno, _⟩ | ⟨u, hu, i', d', hcu, hblk, hperm⟩
        · rw [hno t ht] at hc; simp at hc
        · have : u = t := by
            have := h1 u hu (by rw [hcu]; simp)
            rw [hlk] at this; simpa using this.symm
          subst this
          rw [hc] at hcu
          obtain ⟨rfl, rfl⟩ : i = i' ∧ [] = d' := by simpa using hcu
          refine ⟨done ++ [i], w, [], hw, hpos, ?_, Or.inl ⟨rfl, ?_, ?_⟩⟩
          · rw [hwe]; simp only [List.append_nil] at hblk; simp [hblk]
          · intro v hv
            by_cases hvu : v = u
            · subst hvu; simp
            · simp only [update_of_ne hvu]
              by_contra hh
              have := h1 v hv hh
              rw [hlk] at this; simp at this; exact hvu this.symm
          · rw [left_eq (y := x)]
            · simpa using hperm
            · rfl
            · intro v
              by_cases hv : v = u
              · subst hv; simp
              · simp [update_of_ne hv]
  | @threadDone t _ ht he hc htd =>
    refine ⟨?_, ?_, ?_⟩
    · intro u hu hcu
      by_cases hut : u = t
      · subst hut; simp at hcu
      · simp only [update_of_ne hut] at hcu
        exact h1 u hu hcu
    · intro u hu b hb
      by_cases hut : u = t
      · subst hut; simp
      · simp only [update_of_ne hut] at hb ⊢
        exact h2 u hu b hb
    · rcases h3 with ⟨u, hu, hf⟩ | ⟨done, w, part, hw, hpos, hwe, hq⟩
      · left
        refine ⟨u, hu, ?_⟩
        have hut : u ≠ t := by rintro rfl; rw [he] at hf; simp at hf
        simp only [update_of_ne hut]; exact hf
      · right
        have hleft : left { x with th := update x.th t ⟨[], none, some true⟩ } = left x := by
          apply left_eq
          · rfl
          intro v
          by_cases hv : v = t
          · subst hv; simp [htd]
          · simp [update_of_ne hv]
        refine ⟨done, w, part, hw, hpos, hwe, ?_⟩
        rw [hleft]
        rcases hq with ⟨hpart, hno, hperm⟩ | ⟨u, hu, i', d', hcu, hblk, hperm⟩
        · refine Or.inl ⟨hpart, ?_, hperm⟩
          intro v hv
          by_cases hvt : v = t
          · subst hvt; simp
          · simp only [update_of_ne hvt]; exact hno v hv
        · refine Or.inr ⟨u, hu, i', d', ?_, hblk, hperm⟩
          have hut : u ≠ t := by rintro rfl; rw [hc] at hcu; simp at hcu
          simp only [update_of_ne hut]; exact hcu

/-- What is known of a save at any time. -/
def Inv (j : Job) (x : Sv) : Prop := (x.phase = .idle ∧ x.work = none) ∨ (x.phase = .running ∧ Run j x) ∨
  (x.phase ≠ .idle ∧ x.phase ≠ .running)

theorem inv_step {j : Job} (hj : 0 < j.nshards ∧ 0 < j.nprocs) {x y : Sv} {r : Option Bytes} (hi : Inv j x) (hs : SStep j x y r) : Inv j y := by
  by_cases hrun : x.phase = .running
  · rcases hi with ⟨h, _⟩ | ⟨_, hr⟩ | ⟨_, h⟩
    · rw [hrun] at h; simp at h
    · by_cases hy : y.phase = .running
      · exact Or.inr (Or.inl ⟨hy, run_step hr hrun hs hy⟩)
      · refine Or.inr (Or.inr ⟨?_, hy⟩)
        cases hs <;> simp_all
    · exact absurd hrun h
  · cases hs with
    | start fast hp =>
      rcases hi with ⟨_, hw⟩ | ⟨h, _⟩ | ⟨h, _⟩
      · refine Or.inr (Or.inl ⟨rfl, ?_, ?_, Or.inr ⟨[], [], [], ?_, rfl, rfl, Or.inl ⟨rfl, ?_, ?_⟩⟩⟩)
        · intro t _ h; simp at h
        · intro t _ b h; simp at h
        · simp [hw]
        · intro t _; rfl
        · have : left ⟨some (x.work.getD []), 0, none, j.threads fast, fun i => ⟨share j.nshards (j.threads fast) i, none, none⟩, .running⟩ = List.range j.nshards := by
            unfold left
            apply share_all
            unfold Job.threads
            cases fast <;> simp [hj.1, hj.2]
          rw [this]; simp
      · exact absurd h hrun
      · exact absurd hp h
    | cleanup h => exact Or.inr (Or.inr ⟨by simp, by simp⟩)
    | _ h => exact absurd h hrun

theorem rename_complete {j : Job} {x y : Sv} {w : Bytes} (hi : Inv j x) (hs : SStep j x y (some w)) : Complete j (some w) := by
  cases hs with
  | rename hp hall hw =>
    rcases hi with ⟨h, _⟩ | ⟨_, hr⟩ | ⟨_, h⟩
    · rw [hp] at h; simp at h
    · rcases hr.file with ⟨t, ht, hf⟩ | ⟨done, w', part, hw', _, hwe, hq⟩
      · rw [hall t ht] at hf; simp at hf
      · rw [hw] at hw'
        obtain rfl : w = w' := by simpa using hw'
        have hleft : left x = [] := by
          unfold left
          rw [List.flatMap_eq_nil_iff]
          intro t ht
          exact (hr.over t (by simpa using ht) true (hall t (by simpa using ht))).2 rfl
        rcases hq with ⟨hpart, _, hperm⟩ | ⟨t, ht, i, d, hc, _⟩
        · refine ⟨done, by simpa [hleft] using hperm, ?_⟩
          rw [hwe, hpart]; simp
        · have := (hr.over t ht true (hall t ht)).1
          rw [hc] at this; simp at this
    · exact absurd hp h

/-- **C29.**  Whatever the saves and their threads do, however the steps interleave and wherever the process is killed: the data file
is either what it was before the first save, or the complete file of the save that last renamed its work file. -/
theorem save_is_atomic {jobs : Nat → Job} (hj : ∀ a, 0 < (jobs a).nshards ∧ 0 < (jobs a).nprocs) {s u : Sys} (h0 : Fresh s)
    (h : Reach jobs s u) :
    (u.log = [] ∧ u.data = s.data) ∨ ∃ before a, u.log = before ++ [a] ∧ Complete (jobs a) u.data := by
  have hinv : (∀ a, Inv (jobs a) (u.sv a)) ∧
      ((u.log = [] ∧ u.data = s.data) ∨ ∃ before a, u.log = before ++ [a] ∧ Complete (jobs a) u.data) := by
    induction h with
    | refl => exact ⟨fun a => Or.inl (h0.2 a), Or.inl ⟨h0.1, rfl⟩⟩
    | step _ hst ih =>
      obtain ⟨i1, i2⟩ := ih
      cases hst with
      | @save a y hs =>
        refine ⟨?_, i2⟩
        intro b
        by_cases hb : b = a
        · subst hb; simp only [update_self]; exact inv_step (hj b) (i1 b) hs
        · simp only [update_of_ne hb]; exact i1 b
      | @saveRenames a y w hs =>
        refine ⟨?_, Or.inr ⟨_, a, rfl, rename_complete (i1 a) hs⟩⟩
        intro b
        by_cases hb : b = a
        · subst hb; simp only [update_self]; exact inv_step (hj b) (i1 b) hs
        · simp only [update_of_ne hb]; exact i1 b
      | killed =>
        refine ⟨?_, i2⟩
        intro b
        have hb := i1 b
        show Inv (jobs b) (kill _)
        unfold kill
        split
        · exact hb
        · exact Or.inr (Or.inr ⟨by simp, by simp⟩)
  exact hinv.2

/-- A complete file in the sense of `Complete` is one of the files of `Verif.Save.save_load_restores_partial`. -/
theorem complete_is_fileOf {z : Lz4} {clk : Nat → Int} {δ : Int} {shown : Nat → List (Bytes × Verif.Cache.Spec.Item)} {j : Job}
    (hb : ∀ i < j.nshards, shardBlock z (clk i) (clk i + δ) (shown i) = some (j.block i)) {f : Option Bytes} (h : Complete j f) :
    ∃ word : List Nat, word.Perm (List.range j.nshards) ∧ fileOf z clk δ shown word = f := by
  obtain ⟨word, hw, rfl⟩ := h
  refine ⟨word, hw, ?_⟩
  have hlt : ∀ i ∈ word, i < j.nshards := fun i hi => by simpa using hw.mem_iff.1 hi
  clear hw
  induction word with
  | nil => rfl
  | cons i is ih =>
    unfold fileOf
    rw [hb i (hlt i (by simp)), ih fun k hk => hlt k (by simp [hk])]
    simp

/-! ### Concrete cases -/

namespace Example

/-- One shard with the block `[1, 2]`. -/
def jobs : Nat → Job := fun _ => ⟨1, 4, fun _ => [1, 2]⟩

/-- The data file holds `[7]`, and the work file of every save holds `w0`. -/
def init (w0 : Option Bytes) : Sys := ⟨some [7], fun _ => ⟨w0, 0, none, 0, fun _ => ⟨[], none, none⟩, .idle⟩, []⟩

/-- A save whose block goes out in two writes. -/
theorem trace (w0 : Option Bytes) : ∃ u, Reach jobs (init w0) u ∧ u.log = [0] ∧
    u.data = some (putAt (putAt (w0.getD []) 0 [1]) 1 [2]) := by
  have r1 := Reach.step (Reach.refl (s := init w0)) (Step.save (jobs := jobs) (a := 0) (.start false rfl))
  have r2 := r1.step (.save (a := 0) (.acquire (t := 0) (i := 0) (is := []) rfl Nat.zero_lt_one rfl rfl rfl rfl))
  have r3 := r2.step (.save (a := 0) (.write (t := 0) (i := 0) (k := 1) (d := [1, 2]) rfl Nat.zero_lt_one rfl (by decide) (by decide) rfl))
  have r4 := r3.step (.save (a := 0) (.write (t := 0) (i := 0) (k := 1) (d := [2]) rfl Nat.zero_lt_one rfl (by decide) (by decide) rfl))
  have r5 := r4.step (.save (a := 0) (.release (t := 0) (i := 0) rfl Nat.zero_lt_one rfl))
  have r6 := r5.step (.save (a := 0) (.threadDone (t := 0) rfl Nat.zero_lt_one rfl rfl rfl))
  have r7 := r6.step (.saveRenames (a := 0) (.rename rfl (fun t ht => by
    obtain rfl : t = 0 := Nat.lt_one_iff.1 ht
    rfl) rfl))
  exact ⟨_, r7, rfl, rfl⟩

/-- Hypotheses of `save_is_atomic`, and both outcomes: before the rename the old file, then the new one. -/
example : (∀ a, 0 < (jobs a).nshards ∧ 0 < (jobs a).nprocs) ∧ Fresh (init none) ∧
    (∃ u, Reach jobs (init none) u ∧ u.data = some [1, 2]) := by
  refine ⟨fun _ => ⟨Nat.zero_lt_one, Nat.zero_lt_succ 3⟩, ⟨rfl, fun _ => ⟨rfl, rfl⟩⟩, ?_⟩
  obtain ⟨u, h, _, hd⟩ := trace none
  exact ⟨u, h, hd⟩

/-- Hypotheses of `complete_is_fileOf`. -/
example : ∀ i < 1, shardBlock idCodec 110 1110 [([1], ⟨[10], 150, 7, 2⟩)] =
    some ((⟨1, 4, fun _ => (shardBlock idCodec 110 1110 [([1], ⟨[10], 150, 7, 2⟩)]).getD []⟩ : Job).block i) := by
  intro i hi
  obtain rfl : i = 0 := Nat.lt_one_iff.1 hi
  decide +kernel

end Example

/-- Why `Fresh` asks for it: the work file is opened without `O_TRUNC` (`/repo/src/save.c:158`), so a file left behind under the
same name shows through at the end, and `save` reports success. -/
theorem stale_work_file_damages_save :
    ∃ u, Reach Example.jobs (Example.init (some [9, 9, 9, 9])) u ∧ u.log = [0] ∧ u.data = some [1, 2, 9, 9] ∧
      ¬ Complete (Example.jobs 0) u.data := by
  obtain ⟨u, h, hl, hd⟩ := Example.trace (some [9, 9, 9, 9])
  refine ⟨u, h, hl, hd, ?_⟩
  rintro ⟨word, hw, he⟩
  have hlen := hw.length_eq
  rw [hd] at he
  have he : (word.flatMap fun _ => ([1, 2] : Bytes)).length = 4 := by
    have := congrArg (fun o : Option Bytes => (o.getD []).length) he
    exact this.symm
  simp [List.length_flatMap, Example.jobs] at he hlen
  omega

end Verif.Save.Atomic
