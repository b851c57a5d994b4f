import Verif.Lz4.Step
import Verif.Lz4.Compress

/-!
`LZ4_count` gives the exact length of the common run, up to the limit; the compressor depends on it not stopping early.
-/

namespace Verif.Lz4

variable {src : Mem}

/-- The value of `k` bytes. -/
def leVal (src : Mem) (i : Int) : Nat → Nat
  | 0 => 0
  | k + 1 => (src.at' i).toNat + 256 * leVal src (i + 1) k

theorem readLE_eq {k : Nat} : ∀ {i : Int}, 0 ≤ i → i + k ≤ src.size → readLE src i k = some (leVal src i k) := by
  induction k with
  | zero => intros; rfl
  | succ k ih =>
    intro i h0 h1
    rw [readLE, get_eq h0 (by omega), Option.bind_some, ih (by omega) (by omega)]
    rfl

theorem leVal_inj {k : Nat} : ∀ {i j : Int}, leVal src i k = leVal src j k ↔ ∀ t : Int, 0 ≤ t → t < k → src.at' (i + t) = src.at' (j + t) := by
  induction k with
  | zero => intro i j; exact ⟨fun _ t h1 h2 => by omega, fun _ => rfl⟩
  | succ k ih =>
    intro i j
    have hi := (src.at' i).toNat_lt
    have hj := (src.at' j).toNat_lt
    constructor
    · intro h t h1 h2
      simp only [leVal] at h
      by_cases ht : t = 0
      · subst ht
        rw [Int.add_zero, Int.add_zero]
        exact UInt8.toNat_inj.1 (by omega)
      · have := ih.1 (show leVal src (i + 1) k = leVal src (j + 1) k by omega) (t - 1) (by omega) (by omega)
        rw [show i + t = i + 1 + (t - 1) by omega, show j + t = j + 1 + (t - 1) by omega]
        exact this
    · intro h
      simp only [leVal]
      have h0 := h 0 (by omega) (by omega)
      rw [Int.add_zero, Int.add_zero] at h0
      rw [h0, ih.2 fun t h1 h2 => ?_]
      have := h (t + 1) (by omega) (by omega)
      rw [show i + 1 + t = i + (t + 1) by omega, show j + 1 + t = j + (t + 1) by omega]
      exact this

theorem leVal_lt {k : Nat} : ∀ {i : Int}, leVal src i k < 2 ^ (8 * k) := by
  induction k with
  | zero => intro i; simp [leVal]
  | succ k ih =>
    intro i
    have := ih (i := i + 1)
    have hi := (src.at' i).toNat_lt
    simp only [leVal]
    rw [show 8 * (k + 1) = 8 * k + 8 by omega, Nat.pow_add]
    omega

theorem leVal_bit {k : Nat} : ∀ {i : Int} {t r : Nat}, t < k → r < 8 → (leVal src i k).testBit (8 * t + r) = (src.at' (i + t)).toNat.testBit r := by
  induction k with
  | zero => intros; omega
  | succ k ih =>
    intro i t r ht hr
    have hi : (src.at' i).toNat < 2 ^ 8 := (src.at' i).toNat_lt
    rw [leVal, Nat.add_comm, show (256 : Nat) = 2 ^ 8 from rfl, Nat.testBit_two_pow_mul_add _ hi]
    cases t with
    | zero =>
      rw [if_pos (by omega)]
      simp
    | succ t =>
      rw [if_neg (by omega), show 8 * (t + 1) + r - 8 = 8 * t + r by omega, ih (by omega) hr]
      congr 3
      omega

theorem ctz_spec {v k : Nat} : ∀ {i : Nat}, i ≤ ctz v k i ∧ ctz v k i ≤ i + k ∧ (∀ j, i ≤ j → j < ctz v k i → v.testBit j = false) ∧
    (ctz v k i < i + k → v.testBit (ctz v k i) = true) := by
  induction k with
  | zero => intro i; exact ⟨Nat.le_refl _, Nat.le_refl _, fun j h1 h2 => absurd h2 (by simp only [ctz]; omega), fun h => absurd h (by simp only [ctz]; omega)⟩
  | succ k ih =>
    intro i
    rw [ctz]
    by_cases hb : v.testBit i = true
    · rw [if_pos hb]
      exact ⟨Nat.le_refl _, by omega, fun j h1 h2 => by omega, fun _ => hb⟩
    · rw [if_neg hb]
      obtain ⟨a1, a2, a3, a4⟩ := ih (i := i + 1)
      refine ⟨by omega, by omega, fun j h1 h2 => ?_, fun h => a4 (by omega)⟩
      by_cases hj : j = i
      · subst hj; simpa using hb
      · exact a3 j (by omega) h2

theorem byte_ext {a b : UInt8} (h : ∀ r < 8, a.toNat.testBit r = b.toNat.testBit r) : a = b := by
  apply UInt8.toNat_inj.1
  apply Nat.eq_of_testBit_eq
  intro r
  by_cases hr : r < 8
  · exact h r hr
  · have h1 : a.toNat < 2 ^ r := Nat.lt_of_lt_of_le a.toNat_lt (Nat.pow_le_pow_right (by omega) (by omega : 8 ≤ r))
    have h2 : b.toNat < 2 ^ r := Nat.lt_of_lt_of_le b.toNat_lt (Nat.pow_le_pow_right (by omega) (by omega : 8 ≤ r))
    rw [Nat.testBit_lt_two_pow h1, Nat.testBit_lt_two_pow h2]

theorem nbCommon_spec {q p : Int} (h : leVal src q 8 ^^^ leVal src p 8 ≠ 0) :
    nbCommon (leVal src q 8 ^^^ leVal src p 8) < 8 ∧ (∀ t : Int, 0 ≤ t → t < nbCommon (leVal src q 8 ^^^ leVal src p 8) → src.at' (p + t) = src.at' (q + t)) ∧
    src.at' (p + nbCommon (leVal src q 8 ^^^ leVal src p 8)) ≠ src.at' (q + nbCommon (leVal src q 8 ^^^ leVal src p 8)) := by
  unfold nbCommon
  obtain ⟨_, a2, a3, a4⟩ := ctz_spec (v := leVal src q 8 ^^^ leVal src p 8) (k := 64) (i := 0)
  generalize ctz (leVal src q 8 ^^^ leVal src p 8) 64 0 = c at *
  have hc : c < 64 := by
    by_contra hge
    apply h
    apply Nat.eq_of_testBit_eq
    intro j
    rw [Nat.zero_testBit]
    by_cases hj : j < c
    · exact a3 j (by omega) hj
    · have : leVal src q 8 ^^^ leVal src p 8 < 2 ^ 64 := Nat.xor_lt_two_pow leVal_lt leVal_lt
      exact Nat.testBit_lt_two_pow (Nat.lt_of_lt_of_le this (Nat.pow_le_pow_right (by omega) (by omega)))
  refine ⟨by omega, fun t h1 h2 => ?_, fun heq => ?_⟩
  · obtain ⟨t, rfl⟩ := Int.eq_ofNat_of_zero_le h1
    apply byte_ext
    intro r hr
    have := a3 (8 * t + r) (by omega) (by omega)
    rw [Nat.testBit_xor, leVal_bit (by omega) hr, leVal_bit (by omega) hr] at this
    revert this
    cases (src.at' (q + t)).toNat.testBit r <;> cases (src.at' (p + t)).toNat.testBit r <;> simp
  · have := a4 (by omega)
    rw [show c = 8 * (c / 8) + c % 8 by omega, Nat.testBit_xor, leVal_bit (by omega) (by omega), leVal_bit (by omega) (by omega)] at this
    have h8 : ((c / 8 : Nat) : Int) = ((c / 8 : Nat) : Int) := rfl
    rw [heq] at this
    simp at this

/-- The `d` bytes from `p` and `q` on are the same. -/
def Same (src : Mem) (p q d : Int) : Prop := ∀ t, 0 ≤ t → t < d → src.at' (p + t) = src.at' (q + t)

/-- Before the limit or after `k` bytes the run ends. -/
def Near (src : Mem) (limit : Int) (k : Int) (p q : Int) : Prop := limit - p < k ∨ ∃ t, 0 ≤ t ∧ t < k ∧ src.at' (p + t) ≠ src.at' (q + t)

/-- The exact run. -/
def Run (src : Mem) (p q limit k : Int) : Prop := 0 ≤ k ∧ p + k ≤ limit ∧ Same src p q k ∧ (p + k = limit ∨ src.at' (p + k) ≠ src.at' (q + k))

theorem Same.add {p q d e : Int} (h : Same src p q d) (h' : Same src (p + d) (q + d) e) : Same src p q (d + e) := by
  intro t h1 h2
  by_cases hd : t < d
  · exact h t h1 hd
  · have := h' (t - d) (by omega) (by omega)
    rw [show p + t = p + d + (t - d) by omega, show q + t = q + d + (t - d) by omega]
    exact this

theorem countLoop_spec {p0 q0 limit : Int} (hl : limit ≤ src.size) (hq0 : 0 ≤ q0) (hqp : q0 < p0) (f : Nat) : ∀ {d : Int}, 0 ≤ d → p0 + d ≤ limit → Same src p0 q0 d →
    limit - (p0 + d) < f →
    (∃ e, countLoop src limit p0 f (p0 + d) (q0 + d) = some (.inl (p0 + e, q0 + e)) ∧ 0 ≤ e ∧ p0 + e ≤ limit ∧ Same src p0 q0 e ∧ limit - (p0 + e) < 8) ∨
    ∃ k, countLoop src limit p0 f (p0 + d) (q0 + d) = some (.inr k) ∧ Run src p0 q0 limit k := by
  induction f with
  | zero => intro d _ _ _ h; omega
  | succ f ih =>
    intro d h0 h1 h2 h3
    unfold countLoop
    by_cases hlt : p0 + d < limit - 7
    · rw [if_pos hlt, readLE_eq (by omega) (by omega), readLE_eq (by omega) (by omega), Option.bind_some, Option.bind_some]
      by_cases hx : leVal src (q0 + d) 8 ^^^ leVal src (p0 + d) 8 = 0
      · rw [if_pos hx, Int.add_assoc, Int.add_assoc]
        have heq : leVal src (p0 + d) 8 = leVal src (q0 + d) 8 := by
          have := congrArg (· ^^^ leVal src (p0 + d) 8) hx
          simp only [Nat.xor_assoc, Nat.xor_self, Nat.xor_zero, Nat.zero_xor] at this
          exact this.symm
        exact ih (by omega) (by omega) (h2.add (leVal_inj.1 heq)) (by omega)
      · rw [if_neg hx]
        obtain ⟨b1, b2, b3⟩ := nbCommon_spec hx
        refine .inr ⟨_, rfl, by omega, by omega, ?_, .inr ?_⟩
        · rw [show p0 + d + (nbCommon (leVal src (q0 + d) 8 ^^^ leVal src (p0 + d) 8) : Int) - p0 = d + (nbCommon (leVal src (q0 + d) 8 ^^^ leVal src (p0 + d) 8) : Int) by omega]
          exact h2.add b2
        · rw [show p0 + d + (nbCommon (leVal src (q0 + d) 8 ^^^ leVal src (p0 + d) 8) : Int) - p0 = d + (nbCommon (leVal src (q0 + d) 8 ^^^ leVal src (p0 + d) 8) : Int) by omega,
            ← Int.add_assoc, ← Int.add_assoc]
          exact b3
    · rw [if_neg hlt]
      exact .inl ⟨d, rfl, h0, h1, h2, by omega⟩

theorem countTail_spec {p0 q0 limit e : Int} {k : Nat} (hk : 1 ≤ k) (hl : limit ≤ src.size) (hq0 : 0 ≤ q0) (hqp : q0 < p0) (h0 : 0 ≤ e) (h1 : p0 + e ≤ limit) (h2 : Same src p0 q0 e)
    (h3 : Near src limit (2 * k) (p0 + e) (q0 + e)) :
    ∃ e', countTail src limit k (p0 + e, q0 + e) = some (p0 + e', q0 + e') ∧ 0 ≤ e' ∧ p0 + e' ≤ limit ∧ Same src p0 q0 e' ∧ Near src limit k (p0 + e') (q0 + e') := by
  unfold countTail
  by_cases hlt : p0 + e < limit - ((k : Int) - 1)
  · rw [if_pos hlt, readLE_eq (by omega) (by omega), readLE_eq (by omega) (by omega), Option.bind_some, Option.map_some]
    by_cases hx : leVal src (q0 + e) k = leVal src (p0 + e) k
    · rw [if_pos hx]
      have hs : Same src (p0 + e) (q0 + e) k := leVal_inj.1 hx.symm
      refine ⟨e + k, by simp only [Int.add_assoc], by omega, by omega, h2.add hs, ?_⟩
      rcases h3 with h3 | ⟨t, t1, t2, t3⟩
      · exact .inl (by omega)
      · by_cases ht : t < k
        · exact absurd (hs t t1 ht) t3
        · refine .inr ⟨t - k, by omega, by omega, ?_⟩
          rw [show p0 + (e + k) + (t - k) = p0 + e + t by omega, show q0 + (e + k) + (t - k) = q0 + e + t by omega]
          exact t3
    · rw [if_neg hx]
      refine ⟨e, rfl, h0, h1, h2, .inr ?_⟩
      by_contra hno
      apply hx
      apply leVal_inj.2
      intro t t1 t2
      by_contra hne
      exact hno ⟨t, t1, t2, fun h => hne h.symm⟩
  · rw [if_neg hlt]
    exact ⟨e, rfl, h0, h1, h2, .inl (by omega)⟩

/-- `LZ4_count` is exact. -/
theorem count_spec {p q limit : Int} (hl : limit ≤ src.size) (hq : 0 ≤ q) (hqp : q < p) (hp : p ≤ limit) : ∃ k, count src p q limit = some k ∧ Run src p q limit k := by
  unfold count
  have h := countLoop_spec (src := src) hl hq hqp ((limit - p).toNat + 1) (d := 0) (by omega) (by omega) (fun t h1 h2 => by omega) (by omega)
  rw [Int.add_zero, Int.add_zero] at h
  rcases h with ⟨e, a1, a2, a3, a4, a5⟩ | ⟨k, a1, a2⟩
  · rw [a1, Option.bind_some]
    simp only
    obtain ⟨e1, b1, b2, b3, b4, b5⟩ := countTail_spec (k := 4) (by omega) hl hq hqp a2 a3 a4 (.inl (by omega))
    obtain ⟨e2, c1, c2, c3, c4, c5⟩ := countTail_spec (k := 2) (by omega) hl hq hqp b2 b3 b4 b5
    obtain ⟨e3, d1, d2, d3, d4, d5⟩ := countTail_spec (k := 1) (by omega) hl hq hqp c2 c3 c4 c5
    rw [b1, Option.bind_some, c1, Option.bind_some, d1]
    refine ⟨e3, by simp only [Option.map_some]; congr 1; omega, d2, d3, d4, ?_⟩
    rcases d5 with d5 | ⟨t, t1, t2, t3⟩
    · exact .inl (by omega)
    · have : t = 0 := by omega
      subst this
      rw [Int.add_zero, Int.add_zero] at t3
      exact .inr t3
  · rw [a1]
    exact ⟨k, rfl, a2⟩

end Verif.Lz4
