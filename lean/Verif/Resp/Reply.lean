import Mathlib.Tactic.Common
import Verif.Resp.Props

/-!
C34, C35: RESP replies, `/repo/src/conn.c:230-410`.
-/

namespace Verif.Resp

open Verif.Num

/-! ### Model -/

/-- The loop of `writeln`, `/repo/src/conn.c:241-245`, over the bytes of the buffer from position `i` on: bytes below a blank at the
positions `lo ≤ i < hi` become blanks. -/
def sanitise (lo hi : Nat) : Nat → Bytes → Bytes
  | _, [] => []
  | i, b :: s => (if lo ≤ i ∧ i < hi ∧ b < 32 then 32 else b) :: sanitise lo hi (i + 1) s

/-- `writeln`, `/repo/src/conn.c:230-246`, appends to the output buffer `out`.  The loop runs from `mark`, the position of the text in the
buffer, to `len`, the length of the text. -/
def writeln (out : Bytes) (ch : UInt8) (data : Bytes) : Bytes :=
  sanitise (out.length + 1) data.length 0 (out ++ [ch] ++ data ++ [13, 10])

/-- `conn_write_bulk`, `/repo/src/conn.c:332-346`. -/
def writeBulk (out data : Bytes) : Bytes := out ++ ([36] ++ u64toa data.length ++ [13, 10] ++ data ++ [13, 10])

/-- `conn_write_null`, `/repo/src/conn.c:316-318`. -/
def writeNull (out : Bytes) : Bytes := out ++ [36, 45, 49, 13, 10]

/-- `conn_write_array`, `/repo/src/conn.c:375-379`: the head of an array. -/
def writeArray (out : Bytes) (n : Nat) : Bytes := writeln out 42 (u64toa n)

/-- `conn_write_uint`, `/repo/src/conn.c:381-389`, for RESP. -/
def writeUint (out : Bytes) (n : Nat) : Bytes := writeln out 43 (u64toa n)

/-- `conn_write_int`, `/repo/src/conn.c:391-399`, for RESP. -/
def writeInt (out : Bytes) (n : Int) : Bytes := writeln out 58 (i64toa n)

/-- `conn_write_string`, `/repo/src/conn.c:312-314`. -/
def writeString (out s : Bytes) : Bytes := writeln out 43 s

/-- `write_error`, `/repo/src/conn.c:292-294`, for RESP. -/
def writeError (out s : Bytes) : Bytes := writeln out 45 s

/-- The error text of `evcommand` for a name that is no command, `/repo/src/cmds.c:2399-2401`: `%.*s` stops at a NUL byte, and
`snprintf` keeps 255 bytes. -/
def unknownText (name : Bytes) : Bytes :=
  (([69, 82, 82, 32, 117, 110, 107, 110, 111, 119, 110, 32, 99, 111, 109, 109, 97, 110, 100, 32, 39] : Bytes) ++
    name.takeWhile (· ≠ 0) ++ [39]).take 255

/-! ### A standard decoder -/

inductive Reply where
  | simple (s : Bytes)
  | error (s : Bytes)
  | int (n : Int)
  | bulk (s : Bytes)
  | null
  | array (rs : List Reply)

/-- A line and what follows its CR LF. -/
def line (s : Bytes) : Option (Bytes × Bytes) :=
  match s.dropWhile (· ≠ 13) with
  | 13 :: 10 :: r => some (s.takeWhile (· ≠ 13), r)
  | _ => none

/-- A natural number in decimal. -/
def natOf (s : Bytes) : Option Nat :=
  if s ≠ [] ∧ s.all (fun b => decide (b ∈ ([48, 49, 50, 51, 52, 53, 54, 55, 56, 57] : Bytes))) then some (decimal s) else none

/-- An integer in decimal. -/
def intOf (s : Bytes) : Option Int :=
  match s with
  | 45 :: t => (natOf t).map fun n => -(n : Int)
  | t => (natOf t).map fun n => (n : Int)

mutual
/-- One reply and what follows it. -/
def decode : Nat → Bytes → Option (Reply × Bytes)
  | 0, _ => none
  | fuel + 1, s =>
    match s with
    | [] => none
    | ch :: s =>
      (line s).bind fun (l, r) =>
        if ch = 43 then some (.simple l, r)
        else if ch = 45 then some (.error l, r)
        else if ch = 58 then (intOf l).map fun n => (.int n, r)
        else if ch = 36 then
          if l = [45, 49] then some (.null, r)
          else (natOf l).bind fun n =>
            if r.length < n + 2 ∨ (r.drop n).take 2 ≠ [13, 10] then none else some (.bulk (r.take n), r.drop (n + 2))
        else if ch = 42 then (natOf l).bind fun n => (decodeN fuel n r).map fun (rs, r) => (.array rs, r)
        else none

/-- `n` replies and what follows them. -/
def decodeN : Nat → Nat → Bytes → Option (List Reply × Bytes)
  | _, 0, s => some ([], s)
  | 0, _ + 1, _ => none
  | fuel + 1, n + 1, s => (decode (fuel + 1) s).bind fun (x, s) => (decodeN fuel n s).map fun (xs, s) => (x :: xs, s)
end

/-! ### Values to send -/

/-- What commands send. -/
inductive Val where
  | string (s : Bytes)
  | error (s : Bytes)
  | int (n : Int)
  | uint (n : Nat)
  | bulk (s : Bytes)
  | null
  | array (vs : List Val)

mutual
/-- Writing a value with the functions above. -/
def Val.write : Bytes → Val → Bytes
  | out, .string s => writeString out s
  | out, .error s => writeError out s
  | out, .int n => writeInt out n
  | out, .uint n => writeUint out n
  | out, .bulk s => writeBulk out s
  | out, .null => writeNull out
  | out, .array vs => Val.writeAll (writeArray out vs.length) vs
/-- One after another. -/
def Val.writeAll : Bytes → List Val → Bytes
  | out, [] => out
  | out, v :: vs => Val.writeAll (v.write out) vs
end

mutual
/-- Values in range: 64-bit numbers, texts of lines without control characters. -/
def Val.Ok : Val → Prop
  | .string s => ∀ b ∈ s, 32 ≤ b
  | .error s => ∀ b ∈ s, 32 ≤ b
  | .int n => IsI64 n
  | .uint n => n < 2 ^ 64
  | .bulk s => s.length < 2 ^ 64
  | .null => True
  | .array vs => vs.length < 2 ^ 64 ∧ Val.AllOk vs
def Val.AllOk : List Val → Prop
  | [] => True
  | v :: vs => v.Ok ∧ Val.AllOk vs
end

mutual
/-- What the client should see.  An unsigned number is sent as a line with its decimal digits. -/
def Val.reply : Val → Reply
  | .string s => .simple s
  | .error s => .error s
  | .int n => .int n
  | .uint n => .simple (u64toa n)
  | .bulk s => .bulk s
  | .null => .null
  | .array vs => .array (Val.replies vs)
def Val.replies : List Val → List Reply
  | [] => []
  | v :: vs => v.reply :: Val.replies vs
end

mutual
/-- Size, enough fuel for the decoder. -/
def Val.size : Val → Nat
  | .array vs => 1 + Val.sizes vs
  | _ => 1
def Val.sizes : List Val → Nat
  | [] => 0
  | v :: vs => 1 + v.size + Val.sizes vs
end

/-! ### Proofs -/

theorem sanitise_append (lo hi i : Nat) (a b : Bytes) :
    sanitise lo hi i (a ++ b) = sanitise lo hi i a ++ sanitise lo hi (i + a.length) b := by
  induction a generalizing i with
  | nil => simp [sanitise]
  | cons x a ih => simp only [List.cons_append, sanitise, ih, List.length_cons]; congr 3; omega

theorem sanitise_low {lo hi : Nat} (a : Bytes) (i : Nat) (h : i + a.length ≤ lo ∨ hi ≤ i) : sanitise lo hi i a = a := by
  induction a generalizing i with
  | nil => rfl
  | cons x a ih =>
    simp only [List.length_cons] at h
    simp only [sanitise]
    rw [ih _ (by omega), if_neg (by omega)]

theorem sanitise_clean {lo hi : Nat} (a : Bytes) (i : Nat) (h : ∀ b ∈ a, 32 ≤ b) : sanitise lo hi i a = a := by
  induction a generalizing i with
  | nil => rfl
  | cons x a ih =>
    simp only [sanitise]
    rw [ih _ fun b hb => h b (by simp [hb]), if_neg fun hc => absurd hc.2.2 (UInt8.not_lt.2 (h x (by simp)))]

theorem sanitise_length (lo hi i : Nat) (a : Bytes) : (sanitise lo hi i a).length = a.length := by
  induction a generalizing i with
  | nil => rfl
  | cons x a ih => simp [sanitise, ih]

theorem sanitise_all {lo hi : Nat} (a : Bytes) (i : Nat) (h1 : lo ≤ i) (h2 : i + a.length ≤ hi) : ∀ b ∈ sanitise lo hi i a, 32 ≤ b := by
  induction a generalizing i with
  | nil => simp [sanitise]
  | cons x a ih =>
    simp only [List.length_cons] at h2
    simp only [sanitise, List.mem_cons]
    rintro b (rfl | hb)
    · split
      · decide
      · rename_i hn
        exact UInt8.not_lt.1 fun hx => hn ⟨h1, by omega, hx⟩
    · exact ih (i + 1) (by omega) (by omega) b hb

/-- What the loop reaches: the bytes of the text up to `len - mark`. -/
theorem writeln_eq (out : Bytes) (ch : UInt8) (data : Bytes) :
    writeln out ch data = out ++ ([ch] ++ sanitise (out.length + 1) data.length (out.length + 1) data ++ [13, 10]) := by
  unfold writeln
  rw [sanitise_append, sanitise_append, sanitise_append, sanitise_low out 0 (by omega), sanitise_low [ch] _ (by simp),
    sanitise_low [13, 10] _ (by simp; omega)]
  simp [Nat.add_comm]

theorem writeln_clean (out : Bytes) (ch : UInt8) {data : Bytes} (h : ∀ b ∈ data, 32 ≤ b) :
    writeln out ch data = out ++ ([ch] ++ data ++ [13, 10]) := by
  rw [writeln_eq, sanitise_clean _ _ h]

theorem digits_clean {s : Bytes} (h : ∀ b ∈ s, isDigit b = true) : ∀ b ∈ s, 32 ≤ b := by
  intro b hb
  have := h b hb
  unfold isDigit at this
  simp only [Bool.and_eq_true, decide_eq_true_eq] at this
  exact UInt8.le_trans (by decide) this.1

theorem line_clean {s r : Bytes} (h : ∀ b ∈ s, b ≠ 13) : line (s ++ 13 :: 10 :: r) = some (s, r) := by
  have h1 : (s ++ 13 :: 10 :: r).dropWhile (· ≠ 13) = 13 :: 10 :: r ∧ (s ++ 13 :: 10 :: r).takeWhile (· ≠ 13) = s := by
    induction s with
    | nil => simp
    | cons a s ih =>
      have := ih fun b hb => h b (by simp [hb])
      have ha := h a (by simp)
      simp only [List.cons_append]
      rw [List.dropWhile_cons_of_pos (by simpa using ha), List.takeWhile_cons_of_pos (by simpa using ha)]
      exact ⟨this.1, by rw [this.2]⟩
  unfold line
  rw [h1.1, h1.2]
  rfl

theorem ge32_ne13 {s : Bytes} (h : ∀ b ∈ s, 32 ≤ b) : ∀ b ∈ s, b ≠ 13 := by
  intro b hb
  have := h b hb
  rintro rfl
  exact absurd this (by decide)

theorem natOf_digits {s : Bytes} (hne : s ≠ []) (h : ∀ b ∈ s, isDigit b = true) : natOf s = some (digitsVal 0 s) := by
  unfold natOf
  rw [if_pos, digitsVal_eq_decimal]
  refine ⟨hne, ?_⟩
  rw [List.all_eq_true]
  intro b hb
  simpa using (isDigit_iff b).1 (h b hb)

theorem natOf_u64toa (n : Nat) : natOf (u64toa n) = some n := by
  rw [natOf_digits (u64toa_ne_nil n) (u64toa_digits n), digitsVal_u64toa]

theorem intOf_i64toa {n : Int} (h : IsI64 n) : intOf (i64toa n) = some n ∧ ∀ b ∈ i64toa n, 32 ≤ b := by
  unfold i64toa
  by_cases hn : n < 0
  · rw [if_pos hn]
    by_cases hm : n = i64min
    · rw [if_pos hm]; subst hm; decide +kernel
    · rw [if_neg hm]
      unfold intOf
      simp only []
      rw [natOf_u64toa]
      refine ⟨by simp; omega, ?_⟩
      intro b hb
      rcases List.mem_cons.1 hb with rfl | hb
      · decide
      · exact digits_clean (u64toa_digits _) b hb
  · rw [if_neg hn]
    refine ⟨?_, digits_clean (u64toa_digits _)⟩
    have hd := u64toa_digits n.toNat
    have hne := u64toa_ne_nil n.toNat
    have hv := natOf_u64toa n.toNat
    generalize u64toa n.toNat = s at *
    unfold intOf
    split
    · have := hd 45 (by simp)
      simp [isDigit] at this
    · rw [hv]; simp; omega

mutual
theorem write_append (v : Val) (h : v.Ok) (out : Bytes) : v.write out = out ++ v.write [] := by
  cases v with
  | string s => simp only [Val.write, writeString]; rw [writeln_clean _ _ h, writeln_clean _ _ h]; simp
  | error s => simp only [Val.write, writeError]; rw [writeln_clean _ _ h, writeln_clean _ _ h]; simp
  | int n => simp only [Val.write, writeInt]; rw [writeln_clean _ _ (intOf_i64toa h).2, writeln_clean _ _ (intOf_i64toa h).2]; simp
  | uint n =>
    simp only [Val.write, writeUint]
    rw [writeln_clean _ _ (digits_clean (u64toa_digits n)), writeln_clean _ _ (digits_clean (u64toa_digits n))]; simp
  | bulk s => simp [Val.write, writeBulk]
  | null => simp [Val.write, writeNull]
  | array vs =>
    simp only [Val.write]
    rw [writeAll_append vs h.2, writeAll_append vs h.2 (writeArray [] vs.length)]
    unfold writeArray
    rw [writeln_clean _ _ (digits_clean (u64toa_digits _)), writeln_clean _ _ (digits_clean (u64toa_digits _))]
    simp
theorem writeAll_append (vs : List Val) (h : Val.AllOk vs) (out : Bytes) : Val.writeAll out vs = out ++ Val.writeAll [] vs := by
  cases vs with
  | nil => simp [Val.writeAll]
  | cons v vs =>
    simp only [Val.writeAll]
    rw [writeAll_append vs h.2, writeAll_append vs h.2 (v.write []), write_append v h.1 out]
    simp
end

theorem decode_line {fuel : Nat} {ch : UInt8} {s r : Bytes} (h : ∀ b ∈ s, 32 ≤ b) :
    decode (fuel + 1) ([ch] ++ s ++ [13, 10] ++ r) =
      if ch = 43 then some (.simple s, r)
      else if ch = 45 then some (.error s, r)
      else if ch = 58 then (intOf s).map fun n => (.int n, r)
      else if ch = 36 then
        if s = [45, 49] then some (.null, r)
        else (natOf s).bind fun n =>
          if r.length < n + 2 ∨ (r.drop n).take 2 ≠ [13, 10] then none else some (.bulk (r.take n), r.drop (n + 2))
      else if ch = 42 then (natOf s).bind fun n => (decodeN fuel n r).map fun (rs, r) => (.array rs, r)
      else none := by
  have hform : [ch] ++ s ++ [13, 10] ++ r = ch :: (s ++ 13 :: 10 :: r) := by simp
  rw [hform, decode]
  simp only []
  rw [line_clean (ge32_ne13 h)]
  rfl

mutual
theorem decode_write (v : Val) (h : v.Ok) (fuel : Nat) (hf : v.size ≤ fuel) (rest : Bytes) :
    decode fuel (v.write [] ++ rest) = some (v.reply, rest) := by
  obtain ⟨fuel, rfl⟩ : ∃ g, fuel = g + 1 := by
    cases fuel with
    | zero => cases v <;> simp [Val.size] at hf
    | succ g => exact ⟨g, rfl⟩
  cases v with
  | string s =>
    simp only [Val.write, writeString]
    rw [writeln_clean _ _ h, List.nil_append, decode_line h]
    simp [Val.reply]
  | error s =>
    simp only [Val.write, writeError]
    rw [writeln_clean _ _ h, List.nil_append, decode_line h]
    simp [Val.reply]
  | int n =>
    simp only [Val.write, writeInt]
    rw [writeln_clean _ _ (intOf_i64toa h).2, List.nil_append, decode_line (intOf_i64toa h).2, (intOf_i64toa h).1]
    simp [Val.reply]
  | uint n =>
    simp only [Val.write, writeUint]
    rw [writeln_clean _ _ (digits_clean (u64toa_digits n)), List.nil_append, decode_line (digits_clean (u64toa_digits n))]
    simp [Val.reply]
  | bulk s =>
    simp only [Val.write, writeBulk, List.nil_append]
    have hform : [36] ++ u64toa s.length ++ [13, 10] ++ s ++ [13, 10] ++ rest =
        [36] ++ u64toa s.length ++ [13, 10] ++ (s ++ ([13, 10] ++ rest)) := by simp
    rw [hform, decode_line (digits_clean (u64toa_digits _)), natOf_u64toa]
    have hne : u64toa s.length ≠ [45, 49] := by
      intro he
      have := u64toa_digits s.length 45 (by rw [he]; simp)
      simp [isDigit] at this
    simp only [if_neg hne]
    rw [if_neg (by decide), if_neg (by decide), if_neg (by decide), if_pos trivial]
    simp only [Option.bind_some]
    rw [if_neg]
    · rw [List.take_left, ← List.drop_drop, List.drop_left]
      simp [Val.reply]
    · rw [List.drop_left]; simp
  | null =>
    simp only [Val.write, writeNull, List.nil_append]
    have hform : ([36, 45, 49, 13, 10] : Bytes) ++ rest = [36] ++ [45, 49] ++ [13, 10] ++ rest := by simp
    rw [hform, decode_line (by decide)]
    simp [Val.reply]
  | array vs =>
    simp only [Val.write]
    rw [writeAll_append vs h.2]
    unfold writeArray
    rw [writeln_clean _ _ (digits_clean (u64toa_digits _)), List.nil_append, List.append_assoc,
      decode_line (digits_clean (u64toa_digits _)), natOf_u64toa]
    rw [if_neg (by decide), if_neg (by decide), if_neg (by decide), if_neg (by decide), if_pos rfl]
    simp only [Option.bind_some]
    rw [decodeN_write vs h.2 fuel (by simp only [Val.size] at hf; omega)]
    simp [Val.reply]
theorem decodeN_write (vs : List Val) (h : Val.AllOk vs) (fuel : Nat) (hf : Val.sizes vs ≤ fuel) (rest : Bytes) :
    decodeN fuel vs.length (Val.writeAll [] vs ++ rest) = some (Val.replies vs, rest) := by
  cases vs with
  | nil => cases fuel <;> simp [decodeN, Val.writeAll, Val.replies]
  | cons v vs =>
    simp only [Val.sizes] at hf
    obtain ⟨fuel, rfl⟩ : ∃ g, fuel = g + 1 := ⟨fuel - 1, by omega⟩
    simp only [Val.writeAll, List.length_cons, Val.replies]
    rw [writeAll_append vs h.2, decodeN, List.append_assoc, decode_write v h.1 (fuel + 1) (by omega)]
    simp only [Option.bind_some]
    rw [decodeN_write vs h.2 fuel (by omega)]
    rfl
end

/-- **C34.**  Whatever is already in the output buffer and whatever follows, a sequence of replies is appended to the buffer and decodes to
exactly the values, for every content. -/
theorem replies_decode (vs : List Val) (h : Val.AllOk vs) (out rest : Bytes) :
    ∃ w, Val.writeAll out vs = out ++ w ∧ ∀ fuel, Val.sizes vs ≤ fuel → decodeN fuel vs.length (w ++ rest) = some (Val.replies vs, rest) :=
  ⟨_, writeAll_append vs h out, fun fuel hf => decodeN_write vs h fuel hf rest⟩

/-- Hypothesis of `replies_decode`: a bulk string with CR LF inside of an array. -/
example : Val.AllOk [.array [.bulk [13, 10, 43], .null, .int (-5)], .uint 7, .string [79, 75]] := by
  simp only [Val.AllOk, Val.Ok, IsI64, List.length_cons, List.length_nil]
  decide

/-- **C35, negation.**  After another reply in the same buffer the name of an unknown command is echoed unchanged: the client receives an
error, then a reply `+OK` that is part of the name, then a protocol violation. -/
theorem error_line_injection :
    ∃ name : Bytes, ∃ w, writeError (writeString [] [80, 79, 78, 71]) (unknownText name) = writeString [] [80, 79, 78, 71] ++ w ∧
      decodeN 9 2 w = some ([.error (unknownText [120]).dropLast, .simple [79, 75]], [39, 13, 10]) := by
  refine ⟨[120, 13, 10, 43, 79, 75, 13, 10], _, writeln_eq _ _ _, ?_⟩
  have hw : [45] ++ sanitise ((writeString [] [80, 79, 78, 71]).length + 1) (unknownText [120, 13, 10, 43, 79, 75, 13, 10]).length
      ((writeString [] [80, 79, 78, 71]).length + 1) (unknownText [120, 13, 10, 43, 79, 75, 13, 10]) ++ [13, 10] =
      Val.writeAll [] [.error (unknownText [120]).dropLast, .string [79, 75]] ++ [39, 13, 10] := by decide +kernel
  rw [hw]
  have := decodeN_write [.error (unknownText [120]).dropLast, .string [79, 75]]
    (by simp only [Val.AllOk, Val.Ok]; decide +kernel) 9 (by decide +kernel) [39, 13, 10]
  exact this

/-- **C35** (`_partial`: only as the first reply in the buffer, and if the last character is printable).  Then the line contains no CR or LF
besides its end, and it has the length of the text. -/
theorem error_line_clean_partial (text : Bytes) (hlast : ∀ b, text.getLast? = some b → 32 ≤ b) :
    ∃ l, writeError [] text = 45 :: (l ++ [13, 10]) ∧ l.length = text.length ∧ ∀ b ∈ l, b ≠ 13 ∧ b ≠ 10 := by
  refine ⟨_, writeln_eq [] 45 text, sanitise_length _ _ _ _, ?_⟩
  have h32 : ∀ b ∈ sanitise ((List.length ([] : Bytes)) + 1) text.length ((List.length ([] : Bytes)) + 1) text, 32 ≤ b := by
    rcases List.eq_nil_or_concat text with rfl | ⟨t, x, rfl⟩
    · simp [sanitise]
    · rw [List.concat_eq_append] at *
      rw [sanitise_append]
      intro b hb
      rcases List.mem_append.1 hb with hb | hb
      · exact sanitise_all _ _ (Nat.le_refl _) (by simp; omega) b hb
      · rw [sanitise_clean [x] _ fun b hb => hlast b (by simp at hb; simp [hb])] at hb
        simp only [List.mem_singleton] at hb
        exact hlast b (by simp [hb])
  intro b hb
  have := h32 b hb
  exact ⟨by rintro rfl; exact absurd this (by decide), by rintro rfl; exact absurd this (by decide)⟩

/-- Hypothesis of `error_line_clean_partial`: a text with CR LF inside. -/
example : ∀ b, (unknownText [120, 13, 10, 43, 79, 75]).getLast? = some b → 32 ≤ b := by
  have : (unknownText [120, 13, 10, 43, 79, 75]).getLast? = some 39 := by decide +kernel
  rw [this]
  rintro b ⟨⟩
  decide

end Verif.Resp
