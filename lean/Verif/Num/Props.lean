import Verif.Num.Lemmas
import Mathlib.Tactic.Ring
import Mathlib.Tactic.Linarith

/-! Properties C22 (varints), C23 (fixed-width integers), C24 (clamped arithmetic),
C25/C55 (decimal text). -/

namespace Verif.Num

/-! ## C22 -/

/-- Every 64-bit number is written as 1 to 10 bytes. -/
theorem varint_length (x : Nat) (hx : x < 2 ^ 64) :
    1 ≤ (varintWrite x).length ∧ (varintWrite x).length ≤ 10 := by
  constructor
  · have := varintWrite_ne_nil x
    cases h : varintWrite x with
    | nil => exact absurd h this
    | cons => simp
  · exact varintWrite_length_le 9 x (by
      have : (2:Nat) ^ 64 ≤ 2 ^ (7 * (9 + 1)) := Nat.pow_le_pow_right (by decide) (by decide)
      omega)

example : (2 ^ 64 - 1 : Nat) < 2 ^ 64 ∧ (varintWrite (2 ^ 64 - 1)).length = 10 := by
  constructor
  · decide
  · simp [varintWrite]

/-- The length-checked reader returns the written number and consumes exactly its bytes, whatever
follows in the buffer. -/
theorem varint_roundtrip (x : Nat) (hx : x < 2 ^ 64) (rest : Bytes) :
    varintRead (varintWrite x ++ rest) = (((varintWrite x).length : Int), x) := by
  have hloop := readLoop_write x 0 0 rest (by decide) (Or.inl rfl) (by simpa using hx)
  by_cases hlt : x < 128
  · rw [varintWrite, if_pos hlt]
    simp [varintRead, last_byte_lt hlt, u8_ofNat_toNat_lt (show x < 256 by omega)]
  · rw [varintWrite, if_neg hlt] at *
    simp only [varintRead, List.cons_append, cont_byte_not_lt, if_false] at *
    rw [hloop]; simp

example : varintRead (varintWrite 300 ++ [255, 255]) = (2, 300) :=
  by simpa [varintWrite] using varint_roundtrip 300 (by decide) [255, 255]

/-- The unchecked reader used on stored entries returns the written number and consumes exactly its
bytes; in particular it does not run off the end. -/
theorem varint_roundtrip_raw (x : Nat) (hx : x < 2 ^ 64) (rest : Bytes) :
    varintReadRaw (varintWrite x ++ rest) = some ((varintWrite x).length, x) := by
  have hloop := readRawLoop_write x 0 0 rest (by decide) (Or.inl rfl) (by simpa using hx)
  by_cases hlt : x < 128
  · rw [varintWrite, if_pos hlt]
    simp [varintReadRaw, last_byte_lt hlt, u8_ofNat_toNat_lt (show x < 256 by omega)]
  · rw [varintWrite, if_neg hlt] at *
    simp only [varintReadRaw, List.cons_append, cont_byte_not_lt, if_false] at *
    rw [hloop]; simp

example : varintReadRaw (varintWrite 16384 ++ [7]) = some (3, 16384) :=
  by simpa [varintWrite] using varint_roundtrip_raw 16384 (by decide) [7]

/-- A truncated varint is reported as incomplete (return value 0), never as some other number. -/
theorem varint_truncated (x : Nat) (hx : x < 2 ^ 64) (n : Nat) (hn : n < (varintWrite x).length) :
    (varintRead ((varintWrite x).take n)).1 = 0 := by
  have hlen := (varint_length x hx).2
  have hloop := readLoop_trunc x 0 0 n hn (by omega)
  cases n with
  | zero => simpa [varintRead] using hloop
  | succ n =>
    have : ¬ x < 128 := by
      intro hlt
      rw [varintWrite, if_pos hlt] at hn
      simp at hn
    rw [varintWrite, if_neg this] at *
    simp only [varintRead, List.take_succ_cons, cont_byte_not_lt, if_false] at *
    exact hloop

example : (1 : Nat) < (varintWrite 300).length := by simp [varintWrite]

/-- Decoding a zigzag encoded number returns the number (bit pattern of an `int64_t`). -/
theorem zigzag_roundtrip (x : BitVec 64) : unzigzag (zigzag x) = x := by
  unfold unzigzag zigzag
  by_cases h : x.slt 0
  · have hm : x.msb = true := by
      have := BitVec.slt_zero_eq_msb (x := x); rw [show (0 : BitVec 64) = 0#64 from rfl, this] at h; exact h
    have h1 : (~~~(x <<< 1)) &&& 1 ≠ 0 := by
      intro hc
      have := congrArg (fun v : BitVec 64 => v.getLsbD 0) hc
      simp at this
    simp only [h, if_true]
    rw [if_pos h1]
    apply BitVec.eq_of_getLsbD_eq
    intro i hi
    simp only [BitVec.getLsbD_not, BitVec.getLsbD_ushiftRight, BitVec.getLsbD_shiftLeft]
    by_cases h63 : i = 63
    · subst h63
      simp only [BitVec.msb_eq_getLsbD_last] at hm
      simpa using hm.symm
    · have : 1 + i < 64 := by omega
      simp [hi, this]
  · have hm : x.msb = false := by
      have := BitVec.slt_zero_eq_msb (x := x); rw [show (0 : BitVec 64) = 0#64 from rfl, this] at h; simpa using h
    have h1 : ¬ ((x <<< 1) &&& 1 ≠ 0) := by
      intro hc
      apply hc
      apply BitVec.eq_of_getLsbD_eq
      intro i hi
      cases i with
      | zero => simp
      | succ i => simp [BitVec.getLsbD_one]
    simp only [h, Bool.false_eq_true, if_false]
    rw [if_neg h1]
    apply BitVec.eq_of_getLsbD_eq
    intro i hi
    simp only [BitVec.getLsbD_ushiftRight, BitVec.getLsbD_shiftLeft]
    by_cases h63 : i = 63
    · subst h63
      simp only [BitVec.msb_eq_getLsbD_last] at hm
      simpa using hm.symm
    · have : 1 + i < 64 := by omega
      simp [this]

/-- Signed varints round-trip. -/
theorem varint_roundtrip_signed (x : BitVec 64) (rest : Bytes) :
    varintReadI (varintWriteI x ++ rest) = (((varintWriteI x).length : Int), x) := by
  unfold varintReadI varintWriteI
  rw [varint_roundtrip _ (zigzag x).isLt]
  simp [zigzag_roundtrip]

example : varintWriteI (-1) = [1] := by
  rw [varintWriteI, show (zigzag (-1)).toNat = 1 by decide]; simp [varintWrite]

/-! ## C23 -/

/-- Little-endian fields of any width read back exactly, whatever follows them. -/
theorem le_roundtrip (n x : Nat) (rest : Bytes) (h : x < 256 ^ n) :
    (writeLE n x).length = n ∧ readLE n (writeLE n x ++ rest) = some x :=
  ⟨writeLE_length n x, readLE_write n x rest h⟩

example : (0x0102030405060708 : Nat) < 256 ^ 8 ∧ writeLE 4 0x01020304 = [4, 3, 2, 1] := by decide

/-- Big-endian fields of any width read back exactly, whatever follows them. -/
theorem be_roundtrip (n x : Nat) (rest : Bytes) (h : x < 256 ^ n) :
    (writeBE n x).length = n ∧ readBE n (writeBE n x ++ rest) = some x := by
  have hl : (writeBE n x).length = n := by simp [writeBE, writeLE_length]
  refine ⟨hl, ?_⟩
  unfold readBE
  rw [if_neg (by simp [hl]), List.take_append_of_le_length (by omega)]
  rw [List.take_of_length_le (by omega)]
  have := readLE_write n x [] h
  simpa [writeBE] using this

example : writeBE 4 196608 = [0, 3, 0, 0] ∧ readBE 4 [0, 3, 0, 0, 9] = some 196608 := by decide

/-- Reading more bytes than there are is detected, never silently padded. -/
theorem le_short (n : Nat) (bs : Bytes) (h : bs.length < n) : readLE n bs = none := by
  induction n generalizing bs with
  | zero => simp at h
  | succ n ih =>
    cases bs with
    | nil => rfl
    | cons b bs => simp [readLE, ih bs (by simpa using h)]

example : ([1, 2] : Bytes).length < 4 := by decide

/-! ## C24 -/

/-- Specification: the closest 64-bit integer to an exact result. -/
def saturate (x : Int) : Int := if x < -(2 ^ 63) then -(2 ^ 63) else if x > 2 ^ 63 - 1 then 2 ^ 63 - 1 else x

/-- A 64-bit signed integer. -/
def IsI64 (x : Int) : Prop := -(2 ^ 63) ≤ x ∧ x ≤ 2 ^ 63 - 1

theorem saturate_spec (x : Int) : IsI64 (saturate x) ∧ (IsI64 x → saturate x = x) ∧
    (x < -(2 ^ 63) → saturate x = -(2 ^ 63)) ∧ (x > 2 ^ 63 - 1 → saturate x = 2 ^ 63 - 1) := by
  unfold saturate IsI64
  refine ⟨?_, ?_, ?_, ?_⟩
  · split
    · omega
    · split <;> omega
  · intro h; rw [if_neg (by omega), if_neg (by omega)]
  · intro h; rw [if_pos h]
  · intro h; rw [if_neg (by omega), if_pos h]

/-- Clamped addition is exact or saturates, and never executes an overflowing operation. -/
theorem addClamp_exact (a b : Int) (ha : IsI64 a) (hb : IsI64 b) :
    addClamp a b = some (saturate (a + b)) := by
  obtain ⟨ha1, ha2⟩ := ha
  obtain ⟨hb1, hb2⟩ := hb
  unfold addClamp saturate ck i64min i64max
  by_cases hs : (a < 0) = (b < 0)
  · rw [if_pos (by simpa using hs)]
    by_cases hpos : a > 0
    · rw [if_pos hpos, if_pos (by omega)]
      have hb0 : ¬ b < 0 := by
        intro h; have : a < 0 := by rw [hs]; exact h
        omega
      by_cases ho : b > 2 ^ 63 - 1 - a
      · simp only [ho, if_true]
        rw [if_neg (by omega), if_pos (by omega)]
      · simp only [ho, if_false]
        rw [if_pos (by omega), if_neg (by omega), if_neg (by omega)]
    · rw [if_neg hpos, if_pos (by omega)]
      by_cases ho : b < -(2 ^ 63) - a
      · simp only [ho, if_true]
        rw [if_pos (by omega)]
      · simp only [ho, if_false]
        have hle : a + b ≤ 2 ^ 63 - 1 := by
          by_cases h0 : a < 0
          · have : b < 0 := by rw [← hs]; exact h0
            omega
          · omega
        rw [if_pos (by omega), if_neg (by omega), if_neg (by omega)]
  · rw [if_neg (by simpa using hs)]
    have hop : (a < 0 ∧ ¬ b < 0) ∨ (¬ a < 0 ∧ b < 0) := by
      by_cases h1 : a < 0 <;> by_cases h2 : b < 0 <;> simp_all
    rw [if_pos (by omega), if_neg (by omega), if_neg (by omega)]

example : IsI64 (2 ^ 63 - 1) ∧ IsI64 1 ∧ addClamp (2 ^ 63 - 1) 1 = some (2 ^ 63 - 1) ∧
    addClamp (-(2 ^ 63)) 5 = some (-(2 ^ 63) + 5) := by
  unfold IsI64; decide

theorem tdiv_lt_iff_pos {m b a : Int} (hb : 0 < b) (hm : 0 ≤ m) : m.tdiv b < a ↔ m < a * b := by
  rw [Int.tdiv_eq_ediv_of_nonneg hm]
  exact Int.ediv_lt_iff_lt_mul hb

/-- Truncated division of a negative number by a positive one rounds up. -/
theorem lt_tdiv_iff_negpos {m b a : Int} (hb : 0 < b) (hm : m ≤ 0) : a < m.tdiv b ↔ a * b < m := by
  have h1 : m.tdiv b = -((-m).tdiv b) := by rw [Int.neg_tdiv]; simp
  rw [h1]
  have h2 := tdiv_lt_iff_pos (m := -m) (a := -a) hb (by omega)
  have h3 : -a * b = -(a * b) := by ring
  rw [h3] at h2
  constructor
  · intro h; have := h2.1 (by omega); omega
  · intro h; have := h2.2 (by omega); omega

theorem lt_tdiv_iff_posneg {m b a : Int} (hb : b < 0) (hm : 0 ≤ m) : a < m.tdiv b ↔ m < a * b := by
  have h1 : m.tdiv b = -(m.tdiv (-b)) := by rw [Int.tdiv_neg]; simp
  rw [h1]
  have h2 := tdiv_lt_iff_pos (m := m) (a := -a) (b := -b) (by omega) hm
  have h3 : -a * -b = a * b := by ring
  rw [h3] at h2
  constructor
  · intro h; exact h2.1 (by omega)
  · intro h; have := h2.2 h; omega

theorem tdiv_bound {m b : Int} (hb : b ≠ 0) (hm : IsI64 m) (hx : ¬ (m = -(2 ^ 63) ∧ b = -1)) :
    cdiv m b = some (m.tdiv b) := by
  have h1 : (m.tdiv b).natAbs ≤ m.natAbs := by
    rw [Int.natAbs_tdiv]; exact Nat.div_le_self _ _
  obtain ⟨hm1, hm2⟩ := hm
  unfold cdiv ck i64min i64max
  rw [if_neg hb, if_pos]
  by_cases hmm : m = -(2 ^ 63)
  · have hb1 : b ≠ -1 := fun h => hx ⟨hmm, h⟩
    by_cases hbp : 0 < b
    · have := lt_tdiv_iff_negpos (m := m) (b := b) (a := 0) hbp (by omega)
      have h0 : ¬ 0 < m.tdiv b := by rw [this]; omega
      omega
    · have hb2 : b ≤ -2 := by omega
      have h2 : (m.tdiv b).natAbs ≤ m.natAbs / 2 := by
        rw [Int.natAbs_tdiv]; exact Nat.div_le_div_left (by omega) (by omega)
      omega
  · omega

/-- Clamped multiplication is exact or saturates, and never executes an overflowing operation or a
division that traps. -/
theorem mulClamp_exact (a b : Int) (ha : IsI64 a) (hb : IsI64 b) :
    mulClamp a b = some (saturate (a * b)) := by
  have hmax : IsI64 (2 ^ 63 - 1) := by unfold IsI64; omega
  have hmin : IsI64 (-(2 ^ 63)) := by unfold IsI64; omega
  have hsat : ∀ x : Int, -(2 ^ 63) ≤ x → x ≤ 2 ^ 63 - 1 → ck x = some (saturate x) := by
    intro x h1 h2
    unfold ck saturate i64min i64max
    rw [if_pos ⟨h1, h2⟩, if_neg (by omega), if_neg (by omega)]
  unfold mulClamp
  simp only [show i64max = 2 ^ 63 - 1 from rfl, show i64min = -(2 ^ 63) from rfl]
  by_cases h0 : a ≠ 0 ∨ b ≠ 0
  · rw [if_pos h0]
    by_cases hap : a > 0
    · rw [if_pos hap]
      by_cases hbp : b > 0
      · rw [if_pos hbp, tdiv_bound (by omega) hmax (by omega)]
        simp only [Option.bind_some]
        have hk := tdiv_lt_iff_pos (m := 2 ^ 63 - 1) (b := b) (a := a) hbp (by omega)
        have hpos : 0 ≤ a * b := by positivity
        by_cases hq : a > (2 ^ 63 - 1 : Int).tdiv b
        · have hm := hk.1 hq
          rw [if_pos hq, saturate, if_neg (by omega), if_pos (by omega)]
        · have hm : ¬ (2 ^ 63 - 1 < a * b) := fun h => hq (hk.2 h)
          rw [if_neg hq]; exact hsat _ (by omega) (by omega)
      · rw [if_neg hbp]
        by_cases hbn : b < 0
        · rw [if_pos hbn, tdiv_bound (by omega) hmin (by omega)]
          simp only [Option.bind_some]
          have hk := lt_tdiv_iff_negpos (m := -(2 ^ 63)) (b := a) (a := b) hap (by omega)
          rw [Int.mul_comm b a] at hk
          have hneg : a * b ≤ 0 := by nlinarith
          by_cases hq : b < (-(2 ^ 63) : Int).tdiv a
          · have hm := hk.1 hq
            rw [if_pos hq, saturate, if_pos (by omega)]
          · have hm : ¬ (a * b < -(2 ^ 63)) := fun h => hq (hk.2 h)
            rw [if_neg hq]; exact hsat _ (by omega) (by omega)
        · have : b = 0 := by omega
          subst this
          rw [if_neg (by omega)]; simp only [Int.mul_zero]; exact hsat 0 (by omega) (by omega)
    · rw [if_neg hap]
      by_cases hbp : b > 0
      · rw [if_pos hbp, tdiv_bound (by omega) hmin (by omega)]
        simp only [Option.bind_some]
        have hk := lt_tdiv_iff_negpos (m := -(2 ^ 63)) (b := b) (a := a) hbp (by omega)
        have hneg : a * b ≤ 0 := by nlinarith
        by_cases hq : a < (-(2 ^ 63) : Int).tdiv b
        · have hm := hk.1 hq
          rw [if_pos hq, saturate, if_pos (by omega)]
        · have hm : ¬ (a * b < -(2 ^ 63)) := fun h => hq (hk.2 h)
          rw [if_neg hq]; exact hsat _ (by omega) (by omega)
      · rw [if_neg hbp]
        by_cases hbn : b < 0
        · rw [if_pos hbn, tdiv_bound (by omega) hmax (by omega)]
          simp only [Option.bind_some]
          have hk := lt_tdiv_iff_posneg (m := 2 ^ 63 - 1) (b := b) (a := a) hbn (by omega)
          have hpos : 0 ≤ a * b := by nlinarith
          by_cases hq : a < (2 ^ 63 - 1 : Int).tdiv b
          · have hm := hk.1 hq
            rw [if_pos hq, saturate, if_neg (by omega), if_pos (by omega)]
          · have hm : ¬ (2 ^ 63 - 1 < a * b) := fun h => hq (hk.2 h)
            rw [if_neg hq]; exact hsat _ (by omega) (by omega)
        · have : b = 0 := by omega
          subst this
          rw [if_neg (by omega)]; simp only [Int.mul_zero]; exact hsat 0 (by omega) (by omega)
  · have : a = 0 ∧ b = 0 := by omega
    obtain ⟨rfl, rfl⟩ := this
    rw [if_neg h0]; exact hsat 0 (by omega) (by omega)

example : IsI64 (-(2 ^ 63)) ∧ IsI64 (-1) ∧ mulClamp (-(2 ^ 63)) (-1) = some (2 ^ 63 - 1) ∧
    mulClamp 4000000000 1000000000 = some (4000000000 * 1000000000) := by
  unfold IsI64; decide

/-! ## C25 -/

/-- Specification: value of a decimal digit string. -/
def decimal (ds : Bytes) : Nat := ds.foldl (fun a d => 10 * a + (d - 48).toNat) 0

/-- Specification: `s` is blanks, an optional sign, and digits, and denotes `x`. -/
def DenotesInt (s : Bytes) (x : Int) : Prop :=
  ∃ ws sg ds : Bytes, s = ws ++ sg ++ ds ∧
    (∀ b ∈ ws, b ∈ ([32, 9, 10, 11, 12, 13] : Bytes)) ∧
    ds ≠ [] ∧ (∀ b ∈ ds, b ∈ ([48, 49, 50, 51, 52, 53, 54, 55, 56, 57] : Bytes)) ∧
    ((sg = [] ∨ sg = [43]) ∧ x = decimal ds ∨ sg = [45] ∧ x = -(decimal ds : Int))

theorem digitsVal_eq_decimal (ds : Bytes) : digitsVal 0 ds = decimal ds := by
  have : ∀ a, digitsVal a ds = ds.foldl (fun a d => 10 * a + (d - 48).toNat) a := by
    induction ds with
    | nil => intro a; rfl
    | cons d ds ih => intro a; rw [digitsVal_cons, ih, List.foldl_cons, Nat.mul_comm]
  exact this 0

theorem isDigit_iff (b : UInt8) : isDigit b = true ↔ b ∈ ([48, 49, 50, 51, 52, 53, 54, 55, 56, 57] : Bytes) := by
  have h : ∀ n < 256, isDigit (UInt8.ofNat n) = true ↔ UInt8.ofNat n ∈ ([48, 49, 50, 51, 52, 53, 54, 55, 56, 57] : Bytes) := by
    decide +kernel
  simpa only [UInt8.ofNat_toNat] using h b.toNat b.toNat_lt

theorem isSpace_iff (b : UInt8) : isSpace b = true ↔ b ∈ ([32, 9, 10, 11, 12, 13] : Bytes) := by
  have h : ∀ n < 256, isSpace (UInt8.ofNat n) = true ↔ UInt8.ofNat n ∈ ([32, 9, 10, 11, 12, 13] : Bytes) := by
    decide +kernel
  simpa only [UInt8.ofNat_toNat] using h b.toNat b.toNat_lt

theorem dropWhile_append_all {p : UInt8 → Bool} {a b : Bytes} (h : ∀ x ∈ a, p x = true) :
    (a ++ b).dropWhile p = b.dropWhile p := by
  induction a with
  | nil => rfl
  | cons x a ih =>
    simp [h x (by simp), ih (fun y hy => h y (by simp [hy]))]

theorem strtoScan_spaces {ws r : Bytes} (h : ∀ x ∈ ws, isSpace x = true) :
    strtoScan (ws ++ r) = strtoScan r := by
  unfold strtoScan; rw [dropWhile_append_all h]

theorem strtoScan_plus {ds : Bytes} (h : ∀ b ∈ ds, isDigit b = true) :
    strtoScan (43 :: ds) = (false, ds, []) := by
  have := takeWhile_all h
  unfold strtoScan
  have hs : isSpace 43 = false := by decide
  simp only [List.dropWhile_cons, hs, Bool.false_eq_true, if_false]
  rw [this.1, this.2]

theorem mem_takeWhile {p : UInt8 → Bool} {l : Bytes} {x : UInt8} (h : x ∈ l.takeWhile p) : p x = true := by
  induction l with
  | nil => simp at h
  | cons a l ih =>
    rw [List.takeWhile_cons] at h
    split at h
    · rcases List.mem_cons.1 h with rfl | h
      · assumption
      · exact ih h
    · simp at h

/-- What a scan result says about the text. -/
theorem strtoScan_sound {s : Bytes} {neg : Bool} {ds rest : Bytes} (h : strtoScan s = (neg, ds, rest)) :
    ∃ ws sg : Bytes, s = ws ++ sg ++ ds ++ rest ∧ (∀ x ∈ ws, isSpace x = true) ∧
      (∀ x ∈ ds, isDigit x = true) ∧
      ((neg = false ∧ (sg = [] ∨ sg = [43])) ∨ (neg = true ∧ sg = [45])) := by
  unfold strtoScan at h
  refine ⟨s.takeWhile isSpace, ?_⟩
  have hs := List.takeWhile_append_dropWhile (p := isSpace) (l := s)
  have hws : ∀ x ∈ s.takeWhile isSpace, isSpace x = true := fun x hx => mem_takeWhile hx
  revert h
  generalize s.dropWhile isSpace = s1 at hs
  intro h
  simp only [] at h
  split at h
  · rename_i r
    simp only [Prod.mk.injEq] at h
    obtain ⟨rfl, rfl, rfl⟩ := h
    refine ⟨[45], ?_, hws, fun x hx => mem_takeWhile hx, Or.inr ⟨rfl, rfl⟩⟩
    rw [List.append_assoc, List.append_assoc, List.takeWhile_append_dropWhile]
    simpa using hs.symm
  · rename_i r
    simp only [Prod.mk.injEq] at h
    obtain ⟨rfl, rfl, rfl⟩ := h
    refine ⟨[43], ?_, hws, fun x hx => mem_takeWhile hx, Or.inl ⟨rfl, Or.inr rfl⟩⟩
    rw [List.append_assoc, List.append_assoc, List.takeWhile_append_dropWhile]
    simpa using hs.symm
  · simp only [Prod.mk.injEq] at h
    obtain ⟨rfl, rfl, rfl⟩ := h
    refine ⟨[], ?_, hws, fun x hx => mem_takeWhile hx, Or.inl ⟨rfl, Or.inl rfl⟩⟩
    rw [List.append_nil, List.append_assoc, List.takeWhile_append_dropWhile]
    exact hs.symm

theorem strtoScan_of_denotes {ws sg ds : Bytes} (hws : ∀ x ∈ ws, isSpace x = true)
    (hne : ds ≠ []) (hds : ∀ x ∈ ds, isDigit x = true) (hsg : sg = [] ∨ sg = [43] ∨ sg = [45]) :
    strtoScan (ws ++ sg ++ ds) = (decide (sg = [45]), ds, []) := by
  rw [List.append_assoc, strtoScan_spaces hws]
  rcases hsg with rfl | rfl | rfl
  · simpa using strtoScan_digits hne hds
  · simpa using strtoScan_plus hds
  · simpa using strtoScan_neg hds

/-- Parsing a signed number accepts exactly: the empty text (as 0), and texts of at most 21 bytes
denoting an integer inside the 64-bit range; the result is the denoted integer. -/
theorem parseI64_iff (s : Bytes) (x : Int) :
    parseI64 s = some x ↔
      (s = [] ∧ x = 0) ∨ (s.length ≤ 21 ∧ DenotesInt s x ∧ -(2 ^ 63) ≤ x ∧ x ≤ 2 ^ 63 - 1) := by
  constructor
  · intro h
    unfold parseI64 at h
    split at h
    · simp at h
    · rename_i hlen
      rcases hsc : strtoScan s with ⟨neg, ds, rest⟩
      rw [hsc] at h
      simp only [] at h
      split at h
      · split at h
        · simp at h; left; exact ⟨by assumption, h.symm⟩
        · simp at h
      · rename_i hds
        split at h
        · simp at h
        · rename_i hrest
          have hrest' : rest = [] := by simpa using hrest
          generalize hv : (if neg = true then -(digitsVal 0 ds : Int) else (digitsVal 0 ds : Int)) = v at h
          by_cases hr : v < i64min ∨ v > i64max
          · rw [if_pos hr] at h; simp at h
          · rw [if_neg hr] at h
            simp only [Option.some.injEq] at h
            obtain ⟨ws, sg, hs, hws, hdd, hsg⟩ := strtoScan_sound hsc
            subst hrest'
            right
            refine ⟨by omega, ⟨ws, sg, ds, by simpa using hs, fun b hb => (isSpace_iff b).1 (hws b hb), hds,
              fun b hb => (isDigit_iff b).1 (hdd b hb), ?_⟩, ?_, ?_⟩
            · rcases hsg with ⟨rfl, hsg⟩ | ⟨rfl, rfl⟩
              · left; refine ⟨hsg, ?_⟩; rw [← h, ← digitsVal_eq_decimal, ← hv]; simp
              · right; refine ⟨rfl, ?_⟩; rw [← h, ← digitsVal_eq_decimal, ← hv]; simp
            · rw [h] at hr; simp only [i64min, i64max] at hr; omega
            · rw [h] at hr; simp only [i64min, i64max] at hr; omega
  · rintro (⟨rfl, rfl⟩ | ⟨hlen, ⟨ws, sg, ds, rfl, hws, hne, hds, hx⟩, hlo, hhi⟩)
    · decide
    · have hsc := strtoScan_of_denotes (ws := ws) (sg := sg) (ds := ds)
        (fun b hb => (isSpace_iff b).2 (hws b hb)) hne (fun b hb => (isDigit_iff b).2 (hds b hb))
        (by rcases hx with ⟨h | h, _⟩ | ⟨h, _⟩ <;> simp [h])
      unfold parseI64
      rw [if_neg (by omega), hsc]
      simp only [hne, if_false, ne_eq, not_true_eq_false]
      have hv : (if decide (sg = [45]) = true then -(digitsVal 0 ds : Int) else (digitsVal 0 ds : Int)) = x := by
        rw [digitsVal_eq_decimal]
        rcases hx with ⟨h | h, hx⟩ | ⟨h, hx⟩ <;> simp [h, hx]
      rw [hv, if_neg (by simp only [i64min, i64max]; omega)]

example : DenotesInt [32, 45, 52, 50] (-42) ∧ parseI64 [32, 45, 52, 50] = some (-42) ∧
    parseI64 [57, 57, 57, 57, 57, 57, 57, 57, 57, 57, 57, 57, 57, 57, 57, 57, 57, 57, 57] = none := by
  refine ⟨⟨[32], [45], [52, 50], rfl, by decide, by decide, by decide, Or.inr ⟨rfl, by decide⟩⟩, by decide, by decide⟩

/-- Printing a 64-bit unsigned number and parsing the text returns the number. -/
theorem u64_text_roundtrip (x : Nat) (h : x < 2 ^ 64) : parseU64 (u64toa x) = some x := by
  have hlen : (u64toa x).length ≤ 20 := u64toa_length_le 19 x (by omega)
  have hd := u64toa_digits x
  have hne := u64toa_ne_nil x
  unfold parseU64
  rw [if_neg (by omega)]
  have hh : (u64toa x).head? ≠ some 45 := by
    intro hc
    have hm : (45 : UInt8) ∈ u64toa x := by
      cases hu : u64toa x with
      | nil => exact absurd hu hne
      | cons a l => rw [hu] at hc; simp at hc; simp [hc]
    have := hd 45 hm
    simp [isDigit] at this
  rw [if_neg hh, strtoScan_digits hne hd]
  simp only [hne, if_false, ne_eq, not_true_eq_false, digitsVal_u64toa]
  rw [if_neg (by omega)]; simp

example : (18446744073709551615 : Nat) < 2 ^ 64 ∧ u64toa 120 = [49, 50, 48] := by
  constructor
  · decide
  · simp [u64toa, u64toaLoop]

/-- Printing a 64-bit signed number and parsing the text returns the number. -/
theorem i64_text_roundtrip (x : Int) (h : IsI64 x) : parseI64 (i64toa x) = some x := by
  obtain ⟨h1, h2⟩ := h
  rw [parseI64_iff]
  right
  unfold i64toa
  by_cases hneg : x < 0
  · rw [if_pos hneg]
    by_cases hmin : x = i64min
    · rw [if_pos hmin]
      have : parseI64 i64minText = some x := by rw [hmin]; decide
      rw [parseI64_iff] at this
      rcases this with ⟨h, _⟩ | h
      · simp [i64minText] at h
      · exact h
    · rw [if_neg hmin]
      have hlt : (-x).toNat < 10 ^ (18 + 1) := by omega
      have hlen := u64toa_length_le 18 _ hlt
      refine ⟨by simp; omega, ⟨[], [45], u64toa (-x).toNat, rfl, by simp, u64toa_ne_nil _,
        fun b hb => (isDigit_iff b).1 (u64toa_digits _ b hb), Or.inr ⟨rfl, ?_⟩⟩, h1, h2⟩
      rw [← digitsVal_eq_decimal, digitsVal_u64toa]; omega
  · rw [if_neg hneg]
    have hlt : x.toNat < 10 ^ (18 + 1) := by omega
    have hlen := u64toa_length_le 18 _ hlt
    refine ⟨by omega, ⟨[], [], u64toa x.toNat, rfl, by simp, u64toa_ne_nil _,
      fun b hb => (isDigit_iff b).1 (u64toa_digits _ b hb), Or.inl ⟨Or.inl rfl, ?_⟩⟩, h1, h2⟩
    rw [← digitsVal_eq_decimal, digitsVal_u64toa]; omega

example : IsI64 (-(2 ^ 63)) ∧ parseI64 (i64toa (-(2 ^ 63))) = some (-(2 ^ 63)) := by
  refine ⟨by unfold IsI64; decide, by decide⟩

/-- The text fits the 24 byte buffers used by the callers. -/
theorem u64toa_fits (x : Nat) (h : x < 2 ^ 64) : (u64toa x).length ≤ 20 :=
  u64toa_length_le 19 x (by omega)

example : (0 : Nat) < 2 ^ 64 := by decide

/-! ## C55: unsigned parsing -/

/-- Witness: the unsigned parser accepts a negative number behind a blank, as 2^64-1. -/
theorem parseU64_accepts_negative : parseU64 [32, 45, 49] = some (2 ^ 64 - 1) ∧ DenotesInt [32, 45, 49] (-1) := by
  refine ⟨by decide, ⟨[32], [45], [49], rfl, by decide, by decide, by decide, Or.inr ⟨rfl, by decide⟩⟩⟩

/-- What does hold: text starting with a digit or a sign is accepted only with its true value. -/
theorem parseU64_exact_partial (s : Bytes) (x : Nat) (hns : ∀ b, s.head? = some b → b ∉ ([32, 9, 10, 11, 12, 13] : Bytes)) :
    parseU64 s = some x ↔
      (s = [] ∧ x = 0) ∨ (s.length ≤ 21 ∧ DenotesInt s x ∧ s.head? ≠ some 45 ∧ x < 2 ^ 64) := by
  constructor
  · intro h
    unfold parseU64 at h
    split at h
    · simp at h
    · rename_i hlen
      split at h
      · simp at h
      · rename_i hhd
        rcases hsc : strtoScan s with ⟨neg, ds, rest⟩
        rw [hsc] at h
        simp only [] at h
        split at h
        · split at h
          · simp at h; left; exact ⟨by assumption, h.symm⟩
          · simp at h
        · rename_i hds
          split at h
          · simp at h
          · rename_i hrest
            have hrest' : rest = [] := by simpa using hrest
            split at h
            · simp at h
            · rename_i hr
              simp only [Option.some.injEq] at h
              obtain ⟨ws, sg, hs, hws, hdd, hsg⟩ := strtoScan_sound hsc
              subst hrest'
              have hws0 : ws = [] := by
                cases ws with
                | nil => rfl
                | cons w ws =>
                  have := hns w (by rw [hs]; simp)
                  exact absurd ((isSpace_iff w).1 (hws w (by simp))) this
              subst hws0
              have hnn : neg = false := by
                rcases hsg with ⟨h, _⟩ | ⟨_, hsg⟩
                · exact h
                · rw [hs, hsg] at hhd; simp at hhd
              subst hnn
              simp only [Bool.false_eq_true, if_false] at h
              have hsg' : sg = [] ∨ sg = [43] := by
                rcases hsg with ⟨_, h⟩ | ⟨h, _⟩
                · exact h
                · simp at h
              right
              refine ⟨by omega, ⟨[], sg, ds, by simpa using hs, by simp, hds,
                fun b hb => (isDigit_iff b).1 (hdd b hb), Or.inl ⟨hsg', ?_⟩⟩, hhd, by omega⟩
              rw [← h, digitsVal_eq_decimal]
  · rintro (⟨rfl, rfl⟩ | ⟨hlen, ⟨ws, sg, ds, rfl, hws, hne, hds, hx⟩, hhd, hhi⟩)
    · decide
    · have hsc := strtoScan_of_denotes (ws := ws) (sg := sg) (ds := ds)
        (fun b hb => (isSpace_iff b).2 (hws b hb)) hne (fun b hb => (isDigit_iff b).2 (hds b hb))
        (by rcases hx with ⟨h | h, _⟩ | ⟨h, _⟩ <;> simp [h])
      have hws0 : ws = [] := by
        cases ws with
        | nil => rfl
        | cons w ws => exact absurd (hws w (by simp)) (hns w (by simp))
      subst hws0
      have hsg : sg ≠ [45] := by rintro rfl; simp at hhd
      have hxx : x = decimal ds := by
        rcases hx with ⟨_, h⟩ | ⟨h, _⟩
        · exact_mod_cast h
        · exact absurd h hsg
      unfold parseU64
      rw [if_neg (by omega), if_neg hhd, hsc]
      simp only [hne, if_false, ne_eq, not_true_eq_false, digitsVal_eq_decimal, hsg, decide_false,
        Bool.false_eq_true]
      rw [if_neg (by omega), hxx]

example : parseU64 [49, 56] = some 18 ∧ (∀ b, ([49, 56] : Bytes).head? = some b → b ∉ ([32, 9, 10, 11, 12, 13] : Bytes)) := by
  decide

end Verif.Num
