import Mathlib.Tactic.Common
import Verif.Cmd.Table

/-!
C48: looking up command names.
-/

namespace Verif.Cmd

open Verif.Num

/-- A byte written for a byte of a (lower-case) name: the same, or the capital letter. -/
def SameLetter (x y : UInt8) : Prop := x = y ∨ ∃ i < 26, x.toNat = 65 + i ∧ y.toNat = 97 + i

/-- A name as written by a client, in any mixture of small and capital letters. -/
def Spells (name low : Bytes) : Prop := List.Forall₂ SameLetter name low

theorem argeq_iff (a s : Bytes) : argeq a s = true ↔ a.map lower = s := by
  unfold argeq
  induction a generalizing s with
  | nil => cases s <;> simp [argeqLoop]
  | cons b a ih =>
    cases s with
    | nil => simp [argeqLoop]
    | cons c s =>
      by_cases h : lower b = c
      · simp [argeqLoop, h, ih]
      · simp [argeqLoop, h]

theorem all_bytes {p : UInt8 → Prop} (h : ∀ n < 256, p (UInt8.ofNat n)) (b : UInt8) : p b := by
  have := h b.toNat b.toNat_lt
  simpa using this

theorem lower_lower (b : UInt8) : lower (lower b) = lower b := all_bytes (p := fun b => lower (lower b) = lower b) (by decide +kernel) b

theorem lowerU32_lower (b : UInt8) : lowerU32 (lower b) = lowerU32 b :=
  all_bytes (p := fun b => lowerU32 (lower b) = lowerU32 b) (by decide +kernel) b

theorem fnv1a_lower (s : Bytes) (h : Nat) : fnv1a h (s.map lower) = fnv1a h s := by
  induction s generalizing h with
  | nil => rfl
  | cons b s ih => simp only [List.map_cons, fnv1a, lowerU32_lower, ih]

theorem map_lower_lower (s : Bytes) : (s.map lower).map lower = s.map lower := by
  simp [lower_lower]

theorem probe_lower (name : Bytes) (bs : Buckets) : probe (name.map lower) bs = probe name bs := by
  induction bs with
  | nil => rfl
  | cons x bs ih =>
    cases x with
    | none => rfl
    | some x =>
      have : argeq (name.map lower) x.1 = argeq name x.1 := by
        rw [Bool.eq_iff_iff, argeq_iff, argeq_iff, map_lower_lower]
      simp only [probe, this, ih]

theorem getCmd_lower (name : Bytes) : getCmd (name.map lower) = getCmd name := by
  unfold getCmd hashName
  rw [fnv1a_lower, probe_lower]

theorem probe_miss (name : Bytes) (bs : Buckets) (h : none ∈ bs) (hn : ∀ x, some x ∈ bs → name.map lower ≠ x.1) :
    probe name bs = some none := by
  induction bs with
  | nil => simp at h
  | cons x bs ih =>
    cases x with
    | none => rfl
    | some x =>
      have : argeq name x.1 = false := by
        have := hn x (by simp)
        rw [ne_eq, ← argeq_iff] at this
        simpa using this
      simp only [probe, this]
      simp only [Bool.false_eq_true, if_false]
      exact ih (by simpa using h) (fun y hy => hn y (by simp [hy]))

theorem buckets_from_cmds : ∀ x ∈ buckets, x = none ∨ ∃ y ∈ cmds, x = some y := by
  have : (buckets.all fun x => x = none ∨ ∃ y ∈ cmds, x = some y) = true := by decide +kernel
  intro x hx
  simpa using List.all_eq_true.1 this x hx

theorem gap_behind : ∀ j < 512, none ∈ buckets.drop j := by decide +kernel

theorem names_found : ∀ x ∈ cmds, getCmd x.1 = some (some x) := by decide +kernel

theorem lower_toNat (b : UInt8) : (lower b).toNat = if 65 ≤ b.toNat ∧ b.toNat ≤ 90 then b.toNat + 32 else b.toNat :=
  all_bytes (p := fun b => (lower b).toNat = if 65 ≤ b.toNat ∧ b.toNat ≤ 90 then b.toNat + 32 else b.toNat) (by decide +kernel) b

theorem lower_iff (b c : UInt8) (hc : lower c = c) : lower b = c ↔ SameLetter b c := by
  have h1 := lower_toNat b
  have h2 := lower_toNat c
  rw [hc] at h2
  unfold SameLetter
  rw [← UInt8.toNat_inj, ← UInt8.toNat_inj, h1]
  constructor
  · intro h
    split at h
    · exact Or.inr ⟨b.toNat - 65, by omega, by omega, by omega⟩
    · exact Or.inl h
  · rintro (h | ⟨i, h3, h4, h5⟩)
    · split <;> split at h2 <;> omega
    · split <;> omega

theorem spells_iff (name low : Bytes) (hl : low.map lower = low) : Spells name low ↔ name.map lower = low := by
  unfold Spells
  induction name generalizing low with
  | nil => cases low <;> simp
  | cons b a ih =>
    cases low with
    | nil => simp
    | cons c s =>
      simp only [List.map_cons, List.cons.injEq] at hl
      rw [List.forall₂_cons, ih s hl.2, List.map_cons, List.cons.injEq, lower_iff b c hl.1]

theorem names_small : ∀ x ∈ cmds, x.1.map lower = x.1 := by decide +kernel

/-- **C48.**  For all names: the lookup stays inside of the table and gives the command with this name, ignoring the case of ASCII letters, if
there is one, and otherwise nothing. -/
theorem command_lookup (name : Bytes) :
    (∃ x, getCmd name = some (some x) ∧ x ∈ cmds ∧ Spells name x.1) ∨
    (getCmd name = some none ∧ ∀ x ∈ cmds, ¬ Spells name x.1) := by
  by_cases h : ∃ x ∈ cmds, name.map lower = x.1
  · obtain ⟨x, hx, hn⟩ := h
    refine Or.inl ⟨x, ?_, hx, (spells_iff _ _ (names_small x hx)).2 hn⟩
    rw [← getCmd_lower, hn]
    exact names_found x hx
  · right
    have h' : ∀ x ∈ cmds, name.map lower ≠ x.1 := fun x hx hc => h ⟨x, hx, hc⟩
    refine ⟨?_, fun x hx hc => h' x hx ((spells_iff _ _ (names_small x hx)).1 hc)⟩
    unfold getCmd
    have hnb : nbuckets = 512 := by decide +kernel
    apply probe_miss
    · exact gap_behind _ (by rw [hnb]; exact Nat.mod_lt _ (by omega))
    · intro x hx
      rcases buckets_from_cmds _ (List.mem_of_mem_drop hx) with h1 | ⟨y, hy, h1⟩
      · simp at h1
      · injection h1 with h1
        rw [h1]
        exact h' y hy

/-- The names are the documented ones (`/repo/README.md`, and the comments in the table), each once. -/
theorem command_names : cmds.length = 40 ∧ (cmds.map (·.1)).Nodup := by decide +kernel

/-- `GeT` is found as `get`, the function for GET. -/
example : getCmd [71, 101, 84] = some (some ([103, 101, 116], .cmdGET)) := by decide +kernel

/-- A name that does not exist, with a byte above 127. -/
example : getCmd [103, 101, 116, 200] = some none := by decide +kernel

/-- A command whose function is known. -/
theorem getCmd_of {name low : Bytes} {fn : Fn} (h : Spells name low) (hm : (low, fn) ∈ cmds) : getCmd name = some (some (low, fn)) := by
  rw [← getCmd_lower, (spells_iff _ _ (names_small _ hm)).1 h]
  exact names_found _ hm

end Verif.Cmd
