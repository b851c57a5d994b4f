import Verif.Num.Model
import Mathlib.Tactic.Common

/-! Helper lemmas for the number codecs. -/

namespace Verif.Num

theorem u8_ofNat_toNat_lt {x : Nat} (h : x < 256) : (UInt8.ofNat x).toNat = x := by
  simp [UInt8.toNat_ofNat']; omega

theorem cont_byte (x : Nat) :
    (UInt8.ofNat (x % 256) ||| 128).toNat = x % 128 + 128 := by
  have h : ∀ n < 256, (UInt8.ofNat n ||| 128).toNat = n % 128 + 128 := by decide +kernel
  rw [h (x % 256) (by omega)]; omega

theorem cont_byte_and (x : Nat) :
    ((UInt8.ofNat (x % 256) ||| 128) &&& 127).toNat = x % 128 := by
  have h : ∀ n < 256, ((UInt8.ofNat n ||| 128) &&& 127).toNat = n % 128 := by decide +kernel
  rw [h (x % 256) (by omega)]; omega

theorem cont_byte_not_lt (x : Nat) : ¬ (UInt8.ofNat (x % 256) ||| 128) < 128 := by
  rw [UInt8.lt_iff_toNat_lt, cont_byte]; simp

theorem last_byte_lt {x : Nat} (h : x < 128) : UInt8.ofNat x < 128 := by
  rw [UInt8.lt_iff_toNat_lt, u8_ofNat_toNat_lt (by omega)]; simpa using h

theorem last_byte_and {x : Nat} (h : x < 128) : (UInt8.ofNat x &&& 127).toNat = x := by
  have h' : ∀ n < 128, (UInt8.ofNat n &&& 127).toNat = n := by decide +kernel
  exact h' x h

/-- Accumulating one more group of 7 bits. -/
theorem acc_step {acc v i : Nat} (hacc : acc < 2 ^ (7 * i)) (hv : v * 2 ^ (7 * i) < 2 ^ 64) :
    acc ||| ((v <<< (7 * i)) % 2 ^ 64) = acc + v * 2 ^ (7 * i) := by
  rw [Nat.shiftLeft_eq, Nat.mod_eq_of_lt hv, Nat.or_comm, ← Nat.shiftLeft_eq,
    ← Nat.shiftLeft_add_eq_or_of_lt hacc, Nat.shiftLeft_eq]
  omega

theorem pow7_succ (i : Nat) : 2 ^ (7 * (i + 1)) = 2 ^ (7 * i) * 128 := by
  rw [show 7 * (i + 1) = 7 * i + 7 by omega, Nat.pow_add]

theorem idx_lt_ten {x i : Nat} (hx : 1 ≤ x) (h : x * 2 ^ (7 * i) < 2 ^ 64) : i < 10 := by
  by_contra hc
  have : 2 ^ 70 ≤ 2 ^ (7 * i) := Nat.pow_le_pow_right (by decide) (by omega)
  have h2 : 2 ^ (7 * i) ≤ x * 2 ^ (7 * i) := Nat.le_mul_of_pos_left _ (by omega)
  have h3 : (2:Nat) ^ 64 < 2 ^ 70 := by decide
  omega

theorem split128 (x p : Nat) : x % 128 * p + x / 128 * (p * 128) = x * p := by
  have h := Nat.div_add_mod x 128
  calc x % 128 * p + x / 128 * (p * 128) = (128 * (x / 128) + x % 128) * p := by
        rw [Nat.add_mul]; rw [Nat.mul_comm p 128, ← Nat.mul_assoc, Nat.mul_comm (x/128) 128]; omega
    _ = x * p := by rw [h]

theorem readLoop_write : ∀ (x i acc : Nat) (rest : Bytes), acc < 2 ^ (7 * i) →
    (i = 0 ∨ 1 ≤ x) → x * 2 ^ (7 * i) < 2 ^ 64 →
    varintReadLoop (varintWrite x ++ rest) i acc
      = (((i + (varintWrite x).length : Nat) : Int), acc + x * 2 ^ (7 * i)) := by
  intro x
  induction x using varintWrite.induct with
  | case1 x hx =>
    intro i acc rest hacc hi hlt
    have hi10 : i < 10 := by
      rcases hi with h | h
      · omega
      · exact idx_lt_ten h hlt
    rw [varintWrite, if_pos hx]
    simp only [List.cons_append, List.nil_append, varintReadLoop, hi10, if_true, last_byte_lt hx,
      last_byte_and hx, acc_step hacc hlt]
    simp
  | case2 x hx ih =>
    intro i acc rest hacc hi hlt
    have hi10 : i < 10 := idx_lt_ten (x := x) (by omega) hlt
    rw [varintWrite, if_neg hx]
    have hs := split128 x (2 ^ (7 * i))
    have hl1 : x % 128 * 2 ^ (7 * i) < 2 ^ 64 := by omega
    have hl2 : x / 128 * 2 ^ (7 * (i + 1)) < 2 ^ 64 := by rw [pow7_succ]; omega
    have hacc' : acc + x % 128 * 2 ^ (7 * i) < 2 ^ (7 * (i + 1)) := by
      rw [pow7_succ]
      have : x % 128 * 2 ^ (7 * i) ≤ 127 * 2 ^ (7 * i) := Nat.mul_le_mul_right _ (by omega)
      omega
    simp only [List.cons_append, varintReadLoop, hi10, if_true, cont_byte_not_lt, if_false,
      cont_byte_and, acc_step hacc hl1]
    rw [ih (i + 1) _ rest hacc' (Or.inr (by omega)) hl2]
    rw [pow7_succ]
    refine Prod.ext ?_ ?_
    · simp; omega
    · simp; omega

theorem readRawLoop_write : ∀ (x i acc : Nat) (rest : Bytes), acc < 2 ^ (7 * i) →
    (i = 0 ∨ 1 ≤ x) → x * 2 ^ (7 * i) < 2 ^ 64 →
    varintReadRawLoop (varintWrite x ++ rest) i acc
      = some (i + (varintWrite x).length, acc + x * 2 ^ (7 * i)) := by
  intro x
  induction x using varintWrite.induct with
  | case1 x hx =>
    intro i acc rest hacc hi hlt
    have hi10 : i < 10 := by
      rcases hi with h | h
      · omega
      · exact idx_lt_ten h hlt
    rw [varintWrite, if_pos hx]
    have h7 : 7 * i < 64 := by omega
    simp only [List.cons_append, List.nil_append, varintReadRawLoop, h7, if_true, last_byte_lt hx,
      last_byte_and hx, acc_step hacc hlt]
    simp
  | case2 x hx ih =>
    intro i acc rest hacc hi hlt
    have hi10 : i < 10 := idx_lt_ten (x := x) (by omega) hlt
    rw [varintWrite, if_neg hx]
    have hs := split128 x (2 ^ (7 * i))
    have hl1 : x % 128 * 2 ^ (7 * i) < 2 ^ 64 := by omega
    have hl2 : x / 128 * 2 ^ (7 * (i + 1)) < 2 ^ 64 := by rw [pow7_succ]; omega
    have hacc' : acc + x % 128 * 2 ^ (7 * i) < 2 ^ (7 * (i + 1)) := by
      rw [pow7_succ]
      have : x % 128 * 2 ^ (7 * i) ≤ 127 * 2 ^ (7 * i) := Nat.mul_le_mul_right _ (by omega)
      omega
    have h7 : 7 * i < 64 := by omega
    simp only [List.cons_append, varintReadRawLoop, h7, if_true, cont_byte_not_lt, if_false,
      cont_byte_and, acc_step hacc hl1]
    rw [ih (i + 1) _ rest hacc' (Or.inr (by omega)) hl2]
    rw [pow7_succ]
    simp
    constructor <;> omega

theorem varintWrite_ne_nil (x : Nat) : varintWrite x ≠ [] := by
  rw [varintWrite]; split <;> simp

theorem varintWrite_length_le : ∀ (k x : Nat), x < 2 ^ (7 * (k + 1)) → (varintWrite x).length ≤ k + 1 := by
  intro k
  induction k with
  | zero => intro x hx; rw [varintWrite, if_pos (by simpa using hx)]; simp
  | succ k ih =>
    intro x hx
    rw [varintWrite]
    split
    · simp
    · have : x / 128 < 2 ^ (7 * (k + 1)) := by
        rw [pow7_succ (k+1)] at hx
        exact Nat.div_lt_of_lt_mul (by rw [Nat.mul_comm]; exact hx)
      have := ih _ this
      simp; omega

/-- A strict prefix of a varint only contains continuation bytes. -/
theorem readLoop_trunc : ∀ (x i acc n : Nat), n < (varintWrite x).length → i + n < 10 →
    (varintReadLoop ((varintWrite x).take n) i acc).1 = 0 := by
  intro x
  induction x using varintWrite.induct with
  | case1 x hx =>
    intro i acc n hn hi
    rw [varintWrite, if_pos hx] at hn ⊢
    have : n = 0 := by simpa using hn
    subst this
    have h10 : ¬ i = 10 := by omega
    simp [varintReadLoop, h10]
  | case2 x hx ih =>
    intro i acc n hn hi
    rw [varintWrite, if_neg hx] at hn ⊢
    cases n with
    | zero => 
      have h10 : ¬ i = 10 := by omega
      simp [varintReadLoop, h10]
    | succ n =>
      have hi' : i < 10 := by omega
      simp only [List.take_succ_cons, varintReadLoop, hi', if_true, cont_byte_not_lt, if_false]
      exact ih _ _ _ (by simpa using hn) (by omega)

/-! ### Little endian -/

theorem writeLE_length (n x : Nat) : (writeLE n x).length = n := by
  induction n generalizing x with
  | zero => rfl
  | succ n ih => simp [writeLE, ih]

theorem readLE_write (n x : Nat) (rest : Bytes) (h : x < 256 ^ n) :
    readLE n (writeLE n x ++ rest) = some x := by
  induction n generalizing x with
  | zero => simp at h; subst h; simp [readLE]
  | succ n ih =>
    have hx : x / 256 < 256 ^ n := by
      apply Nat.div_lt_of_lt_mul
      rw [Nat.pow_succ] at h; omega
    simp only [writeLE, List.cons_append, readLE, ih _ hx, Option.map_some]
    rw [u8_ofNat_toNat_lt (by omega), Nat.or_comm,
      ← Nat.shiftLeft_add_eq_or_of_lt (show x % 256 < 2 ^ 8 by omega), Nat.shiftLeft_eq]
    congr 1
    omega

/-! ### Decimal text -/

theorem digitsVal_cons (acc : Nat) (b : UInt8) (bs : Bytes) :
    digitsVal acc (b :: bs) = digitsVal (acc * 10 + (b - 48).toNat) bs := rfl

theorem digitsVal_nil (acc : Nat) : digitsVal acc [] = acc := rfl

theorem digitsVal_append (acc : Nat) (a b : Bytes) :
    digitsVal acc (a ++ b) = digitsVal (digitsVal acc a) b := by
  induction a generalizing acc with
  | nil => rfl
  | cons x a ih => rw [List.cons_append, digitsVal_cons, digitsVal_cons, ih]

theorem digit_byte {d : Nat} (h : d < 10) : (UInt8.ofNat (48 + d) - 48).toNat = d := by
  have h' : ∀ d < 10, (UInt8.ofNat (48 + d) - 48).toNat = d := by decide
  exact h' d h

theorem digit_isDigit {d : Nat} (h : d < 10) : isDigit (UInt8.ofNat (48 + d)) = true := by
  have h' : ∀ d < 10, isDigit (UInt8.ofNat (48 + d)) = true := by decide
  exact h' d h

theorem u64toa_rec (x : Nat) : u64toa x =
    (if x / 10 > 0 then u64toa (x / 10) else []) ++ [UInt8.ofNat (48 + x % 10)] := by
  have aux : ∀ x : Nat, (u64toaLoop x).reverse = u64toa x := by
    intro x
    unfold u64toa
    split
    · rename_i h
      rw [u64toaLoop, if_neg (by omega)]
      simp [Nat.mod_eq_of_lt h]
    · rfl
  rw [← aux x, u64toaLoop]
  split
  · simp [aux]
  · simp

theorem u64toa_digits (x : Nat) : ∀ b ∈ u64toa x, isDigit b = true := by
  induction x using u64toaLoop.induct with
  | case1 x ih =>
    rw [u64toa_rec]
    intro b hb
    simp only [List.mem_append, List.mem_singleton] at hb
    rcases hb with hb | rfl
    · split at hb
      · exact ih (by assumption) b hb
      · simp at hb
    · exact digit_isDigit (Nat.mod_lt _ (by decide))

theorem u64toa_ne_nil (x : Nat) : u64toa x ≠ [] := by rw [u64toa_rec]; simp

theorem digitsVal_u64toa (x : Nat) : digitsVal 0 (u64toa x) = x := by
  induction x using u64toaLoop.induct with
  | case1 x ih =>
    rw [u64toa_rec, digitsVal_append]
    split
    · rw [ih (by assumption)]
      rw [digitsVal_cons, digitsVal_nil, digit_byte (Nat.mod_lt x (by decide))]
      omega
    · rw [digitsVal_nil, digitsVal_cons, digitsVal_nil, digit_byte (Nat.mod_lt x (by decide))]
      omega

theorem u64toa_length_le : ∀ (k x : Nat), x < 10 ^ (k + 1) → (u64toa x).length ≤ k + 1 := by
  intro k
  induction k with
  | zero => intro x hx; rw [u64toa_rec, if_neg (by omega)]; simp
  | succ k ih =>
    intro x hx
    rw [u64toa_rec]
    split
    · have : x / 10 < 10 ^ (k + 1) := by
        apply Nat.div_lt_of_lt_mul
        rw [Nat.pow_succ] at hx; omega
      have := ih _ this
      simp; omega
    · simp

theorem digit_not_space {b : UInt8} (h : isDigit b = true) : isSpace b = false := by
  have h' : ∀ n < 256, isDigit (UInt8.ofNat n) = true → isSpace (UInt8.ofNat n) = false := by decide +kernel
  have := h' b.toNat b.toNat_lt
  simp only [UInt8.ofNat_toNat] at this
  exact this h

theorem digit_not_sign {b : UInt8} (h : isDigit b = true) : b ≠ 45 ∧ b ≠ 43 := by
  constructor <;> rintro rfl <;> simp [isDigit] at h

theorem takeWhile_all {p : UInt8 → Bool} {l : Bytes} (h : ∀ b ∈ l, p b = true) :
    l.takeWhile p = l ∧ l.dropWhile p = [] := by
  induction l with
  | nil => simp
  | cons a l ih =>
    have ha := h a (by simp)
    have := ih (fun b hb => h b (by simp [hb]))
    simp [ha, this]

theorem strtoScan_digits {ds : Bytes} (hne : ds ≠ []) (h : ∀ b ∈ ds, isDigit b = true) :
    strtoScan ds = (false, ds, []) := by
  cases ds with
  | nil => exact absurd rfl hne
  | cons d ds =>
    have hd := h d (by simp)
    have hs := digit_not_space hd
    have hn := digit_not_sign hd
    have := takeWhile_all h
    unfold strtoScan
    simp only [List.dropWhile_cons, hs, Bool.false_eq_true, if_false]
    split
    · rename_i h'; simp at h'; exact absurd h'.1 hn.1
    · rename_i h'; simp at h'; exact absurd h'.1 hn.2
    · rw [this.1, this.2]

theorem strtoScan_neg {ds : Bytes} (h : ∀ b ∈ ds, isDigit b = true) :
    strtoScan (45 :: ds) = (true, ds, []) := by
  have := takeWhile_all h
  unfold strtoScan
  have hs : isSpace 45 = false := by decide
  simp only [List.dropWhile_cons, hs, Bool.false_eq_true, if_false]
  rw [this.1, this.2]

end Verif.Num
