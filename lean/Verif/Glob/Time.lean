import Mathlib.Tactic.Common
import Mathlib.Data.Nat.Choose.Central
import Mathlib.Tactic.Ring
import Verif.Glob.Model

/-!
C120: how long it takes to match a key with a pattern.
-/

namespace Verif.Glob

/-- The rounds of the loop of `match`, `/repo/src/util.c:408-430`, in this call and in all that it makes. -/
def rounds : Nat → Bytes → Bytes → Nat → Nat
  | 0, _, _, _ => 0
  | _ + 1, [], _, _ => 0
  | fuel + 1, p :: ps, s, d =>
    1 + if p = 92 then
      match ps, s with
      | c :: ps', x :: s' => if c ≠ 63 ∧ x ≠ c then 0 else rounds fuel ps' s' d
      | _, _ => 0
    else if p = 42 then
      match ps with
      | [] => 0
      | q :: ps' =>
        if q = 42 then rounds fuel (q :: ps') s d
        else if d = 127 then 0
        else rounds fuel (q :: ps') s (d + 1) +
          if matchGo fuel (q :: ps') s (d + 1) = some false then
            match s with
            | [] => 0
            | _ :: s' => rounds fuel (p :: q :: ps') s' d
          else 0
    else match s with
      | [] => 0
      | x :: s' => if p ≠ 63 ∧ x ≠ p then 0 else rounds fuel ps s' d

/-- The rounds made to match a key with a pattern. -/
def time (pat s : Bytes) : Nat := rounds (pat.length + s.length + 1) pat s 0

/-- `*a*a…*ab`. -/
def slow : Nat → Bytes
  | 0 => [98]
  | k + 1 => 42 :: 97 :: slow k

/-- `aa…a`. -/
def as (n : Nat) : Bytes := List.replicate n 97

theorem slow_length (k : Nat) : (slow k).length = 2 * k + 1 := by
  induction k with
  | zero => rfl
  | succ k ih => simp only [slow, List.length_cons, ih]; omega

theorem slow_no (f : Nat) : ∀ (k n d : Nat), k + d ≤ 127 →
    ((slow k).length + n < f → matchGo f (slow k) (as n) d = some false) ∧ ((slow k).length + 1 + n < f → matchGo f (97 :: slow k) (as n) d = some false) := by
  induction f with
  | zero => intro k n d _; exact ⟨by omega, by omega⟩
  | succ f ih =>
    intro k n d hd
    constructor
    · intro hf
      cases k with
      | zero => cases n <;> rfl
      | succ k =>
        simp only [slow, List.length_cons] at hf
        have h1 := (ih k n (d + 1) (by omega)).2 (by omega)
        have e : matchGo (f + 1) (slow (k + 1)) (as n) d = if d = 127 then some false else (matchGo f (97 :: slow k) (as n) (d + 1)).bind fun r =>
            if r then some true else match as n with | [] => some false | _ :: s' => matchGo f (slow (k + 1)) s' d := rfl
        rw [e, if_neg (by omega), h1]
        cases n with
        | zero => rfl
        | succ n => exact (ih (k + 1) n d hd).1 (by simp only [slow, List.length_cons]; omega)
    · intro hf
      cases n with
      | zero => rfl
      | succ n => exact (ih k n d hd).1 (by omega)

theorem slow_rounds (f : Nat) : ∀ (k n d : Nat), k + d ≤ 127 →
    ((slow k).length + n < f → n.choose k ≤ rounds f (slow k) (as n) d) ∧ ((slow k).length + 1 + (n + 1) < f → n.choose k ≤ rounds f (97 :: slow k) (as (n + 1)) d) := by
  induction f with
  | zero => intro k n d _; exact ⟨by omega, by omega⟩
  | succ f ih =>
    intro k n d hd
    constructor
    · intro hf
      cases k with
      | zero =>
        rw [Nat.choose_zero_right]
        cases n <;> exact Nat.le_add_right 1 _
      | succ k =>
        simp only [slow, List.length_cons] at hf
        cases n with
        | zero => rw [Nat.choose_zero_succ]; exact Nat.zero_le _
        | succ n =>
          have h1 := (ih k n (d + 1) (by omega)).2 (by omega)
          have h2 := (ih (k + 1) n d hd).1 (by simp only [slow, List.length_cons]; omega)
          have h3 := (slow_no f k (n + 1) (d + 1) (by omega)).2 (by omega)
          have e : rounds (f + 1) (slow (k + 1)) (as (n + 1)) d = 1 + if d = 127 then 0 else rounds f (97 :: slow k) (as (n + 1)) (d + 1) +
              if matchGo f (97 :: slow k) (as (n + 1)) (d + 1) = some false then rounds f (slow (k + 1)) (as n) d else 0 := rfl
          rw [e, if_neg (by omega), if_pos h3, Nat.choose_succ_succ']
          omega
    · intro hf
      have h1 := (ih k n d hd).1 (by omega)
      have e : rounds (f + 1) (97 :: slow k) (as (n + 1)) d = 1 + rounds f (slow k) (as n) d := rfl
      omega

/-- **C120, negation.**  The pattern `*a*a…*ab` of `2 k + 1` bytes and the key `aa…a` of `n` bytes do not match, and to find that out takes at
least as many rounds as there are ways to choose `k` of `n`. -/
theorem slow_pattern {k : Nat} (hk : k ≤ 127) (n : Nat) : globMatch (slow k) (as n) = some false ∧ n.choose k ≤ time (slow k) (as n) := by
  unfold globMatch time
  have hl : (as n).length = n := List.length_replicate
  rw [hl]
  exact ⟨(slow_no _ k n 0 (by omega)).1 (by omega), (slow_rounds _ k n 0 (by omega)).1 (by omega)⟩

/-- **C120, negation.**  A pattern of 255 bytes and a key of 254 bytes take more than `2 ^ 245` rounds. -/
theorem never_ends : (slow 127).length = 255 ∧ (as 254).length = 254 ∧ 2 ^ 245 < time (slow 127) (as 254) := by
  refine ⟨slow_length 127, List.length_replicate, ?_⟩
  have h := (slow_pattern (k := 127) (by decide) 254).2
  have h2 := Nat.four_pow_le_two_mul_self_mul_centralBinom 127 (by decide)
  rw [Nat.centralBinom_eq_two_mul_choose] at h2
  have h3 : (4 : Nat) ^ 127 = 2 ^ 246 * 256 := by decide +kernel
  have h4 : (2 * 127).choose 127 = Nat.choose 254 127 := rfl
  rw [h3, h4] at h2
  have h5 : (2 : Nat) ^ 246 = 2 * 2 ^ 245 := by decide +kernel
  have h6 : 0 < (2 : Nat) ^ 245 := Nat.two_pow_pos _
  omega

/-- With 3 stars and 6 letters, 20 ways; the pattern and the key. -/
example : slow 3 = "*a*a*ab".toUTF8.toList ∧ as 6 = "aaaaaa".toUTF8.toList ∧ Nat.choose 6 3 = 20 ∧ 20 ≤ time (slow 3) (as 6) := by decide +kernel

/-! ### A bound -/

theorem pow_step (x g : Nat) : x ^ (g + 1) + 1 ≤ (x + 1) ^ (g + 1) := by
  induction g with
  | zero => simp
  | succ g ih =>
    have h := Nat.mul_le_mul_right (x + 1) ih
    rw [Nat.pow_succ (x + 1) (g + 1), Nat.pow_succ x (g + 1)]
    have e : (x ^ (g + 1) + 1) * (x + 1) = x ^ (g + 1) * x + x ^ (g + 1) + x + 1 := by ring
    omega

theorem step_le {x y g : Nat} (h : x < y) : x ^ (g + 1) + 1 ≤ y ^ (g + 1) :=
  Nat.le_trans (pow_step x g) (Nat.pow_le_pow_left h _)

/-- The number of stars in the pattern. -/
def stars (p : Bytes) : Nat := p.count 42

theorem rounds_le (f : Nat) : ∀ (p s : Bytes) (d : Nat), rounds f p s d ≤ (p.length + s.length + 1) ^ (stars p + 1) := by
  induction f with
  | zero => intro p s d; exact Nat.zero_le _
  | succ f ih =>
    intro p s d
    cases p with
    | nil => exact Nat.zero_le _
    | cons p ps =>
      have one : 1 ≤ ((p :: ps).length + s.length + 1) ^ (stars (p :: ps) + 1) := Nat.one_le_pow _ _ (by omega)
      -- a call with a shorter pattern, which has no more stars
      have sub : ∀ (p' s' : Bytes) (d' : Nat), p'.length + s'.length < (p :: ps).length + s.length → stars p' ≤ stars (p :: ps) →
          1 + rounds f p' s' d' ≤ ((p :: ps).length + s.length + 1) ^ (stars (p :: ps) + 1) := by
        intro p' s' d' hl hs
        have h1 := ih p' s' d'
        have h2 : (p'.length + s'.length + 1) ^ (stars p' + 1) ≤ (p'.length + s'.length + 1) ^ (stars (p :: ps) + 1) :=
          Nat.pow_le_pow_right (by omega) (by omega)
        have h3 := step_le (g := stars (p :: ps)) (show p'.length + s'.length + 1 < (p :: ps).length + s.length + 1 by omega)
        omega
      have tail : ∀ {x : UInt8} {l : Bytes}, stars l ≤ stars (x :: l) := fun {x l} => by
        unfold stars
        rw [List.count_cons]
        omega
      unfold rounds
      split
      · split
        · split
          · exact one
          · exact sub _ _ _ (by simp only [List.length_cons]; omega) (Nat.le_trans tail tail)
        · exact one
      · split
        · rename_i hstar
          split
          · exact one
          · rename_i q ps'
            split
            · exact sub _ _ _ (by simp only [List.length_cons]; omega) tail
            · split
              · exact one
              · have hg : stars (p :: q :: ps') = stars (q :: ps') + 1 := by
                  unfold stars
                  rw [hstar, List.count_cons_self]
                set L := (q :: ps').length + s.length + 1 with hL
                have hL1 : (p :: q :: ps').length + s.length + 1 = L + 1 := by rw [hL, List.length_cons (a := p)]; omega
                have h1 := ih (q :: ps') s (d + 1)
                rw [← hL] at h1
                have key : ∀ r, r ≤ L ^ (stars (p :: q :: ps') + 1) →
                    1 + (rounds f (q :: ps') s (d + 1) + r) ≤ ((p :: q :: ps').length + s.length + 1) ^ (stars (p :: q :: ps') + 1) := by
                  intro r h2
                  rw [hL1]
                  rw [hg] at h2 ⊢
                  have h3 := pow_step L (stars (q :: ps'))
                  have h4 := Nat.mul_le_mul_right (L + 1) h3
                  rw [Nat.pow_succ (L + 1) (stars (q :: ps') + 1)]
                  rw [Nat.pow_succ L (stars (q :: ps') + 1)] at h2
                  have e : (L ^ (stars (q :: ps') + 1) + 1) * (L + 1) = L ^ (stars (q :: ps') + 1) * L + L ^ (stars (q :: ps') + 1) + L + 1 := by ring
                  omega
                apply key
                split
                · cases s with
                  | nil => exact Nat.zero_le _
                  | cons x s' =>
                    have := ih (p :: q :: ps') s' d
                    have e : (p :: q :: ps').length + s'.length + 1 = L := by rw [hL]; simp only [List.length_cons]; omega
                    rwa [e] at this
                · exact Nat.zero_le _
        · split
          · exact one
          · split
            · exact one
            · exact sub _ _ _ (by simp only [List.length_cons]; omega) tail

/-- **C120** (`_partial`: the power is the number of stars).  To match a key with a pattern takes at most `(|pattern| + |key| + 1) ^ (stars + 1)` rounds. -/
theorem time_bounded_partial (pat s : Bytes) : time pat s ≤ (pat.length + s.length + 1) ^ (stars pat + 1) := rounds_le _ _ _ _

/-- For `user:*` and a key the bound is a square, and what it takes is much less. -/
example : stars "user:*".toUTF8.toList = 1 ∧ time "user:*".toUTF8.toList "user:123".toUTF8.toList = 6 := by decide +kernel

end Verif.Glob
