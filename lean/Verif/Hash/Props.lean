import Mathlib.Tactic.Common
import Verif.Hash.Model

/-!
C118: keys that have the same hash, whatever the seed.
-/

namespace Verif.Hash

/-- The highest bit. -/
def top : BitVec 64 := 0x8000000000000000

theorem xor_top (x : BitVec 64) : x ^^^ top = x + top := by
  apply BitVec.eq_of_getLsbD_eq
  intro i hi
  rw [BitVec.getLsbD_xor, BitVec.getLsbD_add hi]
  have h : BitVec.carry i x top false = false := by
    unfold BitVec.carry
    have h1 : top.toNat % 2 ^ i = 0 := by
      have : top.toNat = 2 ^ 63 := by decide
      rw [this]
      exact Nat.mod_eq_zero_of_dvd (Nat.pow_dvd_pow 2 (by omega))
    rw [h1]
    have := Nat.mod_lt x.toNat (Nat.two_pow_pos i)
    simp
    omega
  rw [h]
  simp

theorem mul_top (x : BitVec 64) : (x ^^^ top) * mul = x * mul ^^^ top := by
  rw [xor_top, xor_top, BitVec.add_mul]
  congr 1

theorem rot_xor (x y : BitVec 64) : rot (x ^^^ y) = rot x ^^^ rot y := by
  unfold rot
  apply BitVec.eq_of_getLsbD_eq
  intro i hi
  simp only [BitVec.getLsbD_or, BitVec.getLsbD_xor, BitVec.getLsbD_shiftLeft, BitVec.getLsbD_ushiftRight]
  by_cases h : i < 31
  · simp [h]
  · have : x.getLsbD (33 + i) = false := BitVec.getLsbD_of_ge _ _ (by omega)
    have h2 : y.getLsbD (33 + i) = false := BitVec.getLsbD_of_ge _ _ (by omega)
    simp [h, hi, this, h2]

/-- Two words that can be put in place of two words of 0. -/
def w0 : BitVec 64 := 0x61c70673e68f0a0e
def w1 : BitVec 64 := 0xf347850700000000

theorem mix_two (h : BitVec 64) : mix (mix h w0) w1 = mix (mix h 0) 0 := by
  have e0 : rot (w0 * mul) = rot (0 * mul) ^^^ (0x100000000 : BitVec 64) := by decide
  have e1 : rot (w1 * mul) = rot (0 * mul) ^^^ top := by decide
  have e2 : rot (0x100000000 : BitVec 64) = top := by decide
  unfold mix
  rw [e0, e1, ← BitVec.xor_assoc (h * mul), rot_xor _ 0x100000000, e2, mul_top]
  congr 1
  rw [BitVec.xor_comm (rot (0 * mul)) top, ← BitVec.xor_assoc, BitVec.xor_assoc _ top top, BitVec.xor_self, BitVec.xor_zero]

/-- 16 bytes: zeros, or the two words. -/
def piece (b : Bool) : Bytes :=
  if b then [14, 10, 143, 230, 115, 6, 199, 97, 0, 0, 0, 0, 7, 133, 71, 243] else [0, 0, 0, 0, 0, 0, 0, 0, 0, 0, 0, 0, 0, 0, 0, 0]

/-- The key made of these pieces. -/
def key (bs : List Bool) : Bytes := bs.flatMap piece

theorem loop_eight (h : BitVec 64) (a b c d e f g i : UInt8) (p : Bytes) :
    loop h (a :: b :: c :: d :: e :: f :: g :: i :: p) = loop (mix h (word [a, b, c, d, e, f, g, i])) p := by rw [loop]

theorem loop_key (h : BitVec 64) (bs : List Bool) (p : Bytes) : loop h (key bs ++ p) = loop (bs.foldl (fun h _ => mix (mix h 0) 0) h) p := by
  induction bs generalizing h with
  | nil => rfl
  | cons b bs ih =>
    have e : key (b :: bs) ++ p = piece b ++ (key bs ++ p) := by simp [key]
    rw [e, List.foldl_cons, ← ih]
    cases b with
    | false =>
      have h0 : word [0, 0, 0, 0, 0, 0, 0, 0] = 0 := by decide
      simp only [piece, Bool.false_eq_true, if_false, List.cons_append, List.nil_append, loop_eight, h0]
    | true =>
      have h0 : word [14, 10, 143, 230, 115, 6, 199, 97] = w0 := by decide
      have h1 : word [0, 0, 0, 0, 7, 133, 71, 243] = w1 := by decide
      simp only [piece, if_true, List.cons_append, List.nil_append, loop_eight, h0, h1, mix_two]

theorem key_length (bs : List Bool) : (key bs).length = 16 * bs.length := by
  induction bs with
  | nil => rfl
  | cons b bs ih =>
    have e : key (b :: bs) = piece b ++ key bs := by simp [key]
    rw [e, List.length_append, ih]
    cases b <;> simp [piece] <;> omega

/-- **C118, negation.**  There are as many different keys as one likes that have the same hash with every seed. -/
theorem same_hash (seed : BitVec 64) {bs bs' : List Bool} (h : bs.length = bs'.length) : th64 seed (key bs) = th64 seed (key bs') := by
  have hl : ∀ bs : List Bool, loop seed (key bs) = loop (bs.foldl (fun h _ => mix (mix h 0) 0) seed) [] := fun bs => by
    rw [← loop_key, List.append_nil]
  have hf : ∀ (bs bs' : List Bool) (s : BitVec 64), bs.length = bs'.length → bs.foldl (fun h _ => mix (mix h 0) 0) s = bs'.foldl (fun h _ => mix (mix h 0) 0) s := by
    intro bs
    induction bs with
    | nil =>
      intro bs' s h
      rw [List.eq_nil_of_length_eq_zero h.symm]
    | cons b bs ih =>
      intro bs' s h
      cases bs' with
      | nil => cases h
      | cons b' bs' => exact ih bs' _ (Nat.succ.inj h)
  unfold th64
  rw [hl, hl, key_length, key_length, h, hf _ _ _ h]

/-- Two keys of 32 bytes that differ and have the same hash with every seed. -/
example : key [true, false] ≠ key [false, true] ∧ [true, false].length = [false, true].length := by decide

theorem key_inj {bs bs' : List Bool} (h : key bs = key bs') : bs = bs' := by
  induction bs generalizing bs' with
  | nil =>
    have := congrArg List.length h
    rw [key_length, key_length] at this
    exact (List.eq_nil_of_length_eq_zero (by simp at this; omega)).symm
  | cons b bs ih =>
    cases bs' with
    | nil =>
      have := congrArg List.length h
      rw [key_length, key_length] at this
      simp at this
    | cons b' bs' =>
      have e : ∀ (b : Bool) bs, key (b :: bs) = piece b ++ key bs := by simp [key]
      rw [e, e] at h
      obtain ⟨h1, h2⟩ := List.append_inj h (by cases b <;> cases b' <;> rfl)
      have hb : b = b' := by
        revert h1
        cases b <;> cases b' <;> decide
      rw [hb, ih h2]

/-! ### Keys of 8 bytes -/

theorem mul_inj {x y : BitVec 64} (h : x * mul = y * mul) : x = y := by
  have e : mul * (0xb0e38339f3478507 : BitVec 64) = 1 := by decide
  have := congrArg (· * (0xb0e38339f3478507 : BitVec 64)) h
  simp only [BitVec.mul_assoc, e] at this
  rwa [show x * 1 = x from BitVec.mul_one x, show y * 1 = y from BitVec.mul_one y] at this

theorem rot_inj {x y : BitVec 64} (h : rot x = rot y) : x = y := by
  apply BitVec.eq_of_getLsbD_eq
  intro i hi
  by_cases h33 : i < 33
  · have := congrArg (fun z => BitVec.getLsbD z (i + 31)) h
    unfold rot at this
    simp only [BitVec.getLsbD_or, BitVec.getLsbD_shiftLeft, BitVec.getLsbD_ushiftRight] at this
    rw [BitVec.getLsbD_of_ge x (33 + (i + 31)) (by omega), BitVec.getLsbD_of_ge y (33 + (i + 31)) (by omega)] at this
    simpa [show i + 31 < 64 by omega, show ¬ i + 31 < 31 by omega] using this
  · have := congrArg (fun z => BitVec.getLsbD z (i - 33)) h
    unfold rot at this
    simp only [BitVec.getLsbD_or, BitVec.getLsbD_shiftLeft, BitVec.getLsbD_ushiftRight] at this
    simpa [show i - 33 < 31 by omega, show 33 + (i - 33) = i by omega] using this

theorem shift_inj {x y : BitVec 64} (h : x ^^^ x >>> 31 = y ^^^ y >>> 31) : x = y := by
  have key : ∀ k i, 64 ≤ i + k → x.getLsbD i = y.getLsbD i := by
    intro k
    induction k with
    | zero => intro i hi; rw [BitVec.getLsbD_of_ge x i (by omega), BitVec.getLsbD_of_ge y i (by omega)]
    | succ k ih =>
      intro i hi
      by_cases hc : 64 ≤ i + k
      · exact ih i hc
      · have := congrArg (fun z => BitVec.getLsbD z i) h
        simp only [BitVec.getLsbD_xor, BitVec.getLsbD_ushiftRight] at this
        rw [ih (31 + i) (by omega)] at this
        simpa using this
  apply BitVec.eq_of_getLsbD_eq
  intro i _
  exact key 64 i (by omega)

theorem finish_inj {x y : BitVec 64} {len : Nat} (h : finish x len = finish y len) : x = y := by
  unfold finish at h
  have h1 := shift_inj (mul_inj (shift_inj (mul_inj (shift_inj (mul_inj h)))))
  have h2 := congrArg (· - BitVec.ofNat 64 len) h1
  simp only [BitVec.add_sub_cancel] at h2
  exact mul_inj h2

theorem number_lt (bs : Bytes) : number bs < 256 ^ bs.length := by
  induction bs with
  | nil => decide
  | cons b bs ih =>
    have := b.toNat_lt
    rw [number, List.length_cons, Nat.pow_succ]
    omega

theorem number_inj {bs bs' : Bytes} (hl : bs.length = bs'.length) (h : number bs = number bs') : bs = bs' := by
  induction bs generalizing bs' with
  | nil => exact (List.eq_nil_of_length_eq_zero hl.symm).symm
  | cons b bs ih =>
    cases bs' with
    | nil => cases hl
    | cons b' bs' =>
      have h1 := b.toNat_lt
      have h2 := b'.toNat_lt
      rw [number, number] at h
      have h3 : b.toNat = b'.toNat := by omega
      rw [UInt8.toNat_inj.1 h3, ih (Nat.succ.inj hl) (by omega)]

/-- **C118** (`_partial`: keys of 8 bytes).  Different keys of 8 bytes have different hashes, with every seed. -/
theorem eight_bytes_differ_partial (seed : BitVec 64) {k k' : Bytes} (hk : k.length = 8) (hk' : k'.length = 8) (h : th64 seed k = th64 seed k') : k = k' := by
  have key : ∀ k : Bytes, k.length = 8 → loop seed k = mix seed (word k) := by
    intro k hk
    match k, hk with
    | [a, b, c, d, e, f, g, i], _ => rw [loop_eight]; rfl
  unfold th64 at h
  rw [hk, hk', key k hk, key k' hk'] at h
  have h1 := rot_inj (finish_inj h)
  have h2 := congrArg (seed * mul ^^^ ·) h1
  simp only [← BitVec.xor_assoc, BitVec.xor_self, BitVec.zero_xor] at h2
  have h3 := congrArg BitVec.toNat (mul_inj (rot_inj h2))
  have b1 := number_lt k
  have b2 := number_lt k'
  rw [hk] at b1
  rw [hk'] at b2
  simp only [word, BitVec.toNat_ofNat] at h3
  exact number_inj (by omega) (by omega)

/-- The hypotheses hold for `user:001` and itself; another key of 8 bytes has another hash. -/
example : ("user:001".toUTF8.toList).length = 8 ∧ ("user:002".toUTF8.toList).length = 8 ∧
    th64 7 "user:001".toUTF8.toList ≠ th64 7 "user:002".toUTF8.toList := by decide +kernel

end Verif.Hash
