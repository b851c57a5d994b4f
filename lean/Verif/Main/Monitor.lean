import Mathlib.Tactic.Common
import Verif.Cmd.TableProps

/-!
C54: what the MONITOR command shows, `/repo/src/monitor.c:49-103` and its call in `/repo/src/cmds.c:2396-2397`.

The text in front of the arguments (time, database and address, `snprintf` in lines 62-64) is a parameter.
-/

namespace Verif.Main.Monitor

open Verif.Cmd (lower argeq getCmd Spells SameLetter)

/-- `args_eq`, `/repo/src/args.c:28-44`. -/
def argsEq (args : List Bytes) (i : Nat) (name : Bytes) : Bool :=
  match args[i]? with
  | none => false
  | some a => a.length = name.length && a.map lower = name.map lower

/-- A hexadecimal digit, capital (`%X`). -/
def hexDigit (n : Nat) : UInt8 := if n < 10 then UInt8.ofNat (48 + n) else UInt8.ofNat (55 + n)

/-- The characters for one byte of an argument, `/repo/src/monitor.c:67-93`.  For the other control characters eight bytes are taken from `hex`, of
which `snprintf` has written five (four characters and a NUL); the last three are whatever the stack holds: `junk`. -/
def showByte (junk : Bytes) (ch : UInt8) : Bytes :=
  if ch = 10 then [92, 110]
  else if ch = 13 then [92, 114]
  else if ch = 9 then [92, 116]
  else if ch = 34 then [92, 34]
  else if ch = 92 then [92, 92]
  else if ch < 32 ∨ ch ≥ 127 then ([92, 120, hexDigit (ch.toNat / 16), hexDigit (ch.toNat % 16), 0] ++ junk).take 8
  else [ch]

/-- The loop over the arguments, `/repo/src/monitor.c:66-95`. -/
def showArgs (junk : Bytes) (args : List Bytes) : Bytes :=
  args.flatMap fun a => [32, 34] ++ a.flatMap (showByte junk) ++ [34]

/-- `auth`, `quit`, `monitor`. -/
def authName : Bytes := [97, 117, 116, 104]
/-- See `authName`. -/
def quitName : Bytes := [113, 117, 105, 116]
/-- See `authName`. -/
def monitorName : Bytes := [109, 111, 110, 105, 116, 111, 114]

/-- `monitor_cmd`, `/repo/src/monitor.c:49-103`: what is written to each monitoring connection, if anything.  `head` is the text of
lines 62-64. -/
def monitorCmd (watching : Bool) (junk head : Bytes) (args : List Bytes) : Option Bytes :=
  if !watching then none
  else if args.length = 0 || argsEq args 0 authName || argsEq args 0 quitName || argsEq args 0 monitorName then none
  else some (head ++ showArgs junk args ++ [13, 10])

/-! ### Specification: how a reader of the line gets the arguments back -/

/-- Read up to the closing quotation mark. -/
def readQuoted : Bytes → Option (Bytes × Bytes)
  | [] => none
  | 34 :: r => some ([], r)
  | 92 :: 110 :: r => (readQuoted r).map fun x => (10 :: x.1, x.2)
  | 92 :: 114 :: r => (readQuoted r).map fun x => (13 :: x.1, x.2)
  | 92 :: 116 :: r => (readQuoted r).map fun x => (9 :: x.1, x.2)
  | 92 :: c :: r => (readQuoted r).map fun x => (c :: x.1, x.2)
  | c :: r => (readQuoted r).map fun x => (c :: x.1, x.2)

/-- Read arguments until the line's end.  The number bounds the number of arguments. -/
def readLine : Nat → Bytes → Option (List Bytes)
  | _, [13, 10] => some []
  | n + 1, 32 :: 34 :: r => (readQuoted r).bind fun x => (readLine n x.2).map fun l => x.1 :: l
  | _, _ => none

/-- Printable ASCII. -/
def Printable (c : UInt8) : Prop := 32 ≤ c.toNat ∧ c.toNat ≤ 126

/-- The bytes shown correctly: printable ones, tab, newline, carriage return. -/
def Plain (c : UInt8) : Prop := Printable c ∨ c = 9 ∨ c = 10 ∨ c = 13

instance (c : UInt8) : Decidable (Printable c) := by unfold Printable; infer_instance
instance (c : UInt8) : Decidable (Plain c) := by unfold Plain; infer_instance

/-! ### Proofs -/

theorem showByte_plain (junk : Bytes) {c : UInt8} (h : Plain c) : showByte junk c = showByte [] c := by
  have : ∀ n < 256, Plain (UInt8.ofNat n) → UInt8.ofNat n = 10 ∨ UInt8.ofNat n = 13 ∨ UInt8.ofNat n = 9 ∨
      ¬ (UInt8.ofNat n < 32 ∨ UInt8.ofNat n ≥ 127) := by decide +kernel
  have h1 : c = 10 ∨ c = 13 ∨ c = 9 ∨ ¬ (c < 32 ∨ c ≥ 127) := by
    have := this c.toNat c.toNat_lt
    simp only [UInt8.ofNat_toNat] at this
    exact this h
  rcases h1 with rfl | rfl | rfl | h1
  · rfl
  · rfl
  · rfl
  · simp only [showByte, if_neg h1]

theorem showByte_printable (junk : Bytes) {c : UInt8} (h : Plain c) : ∀ x ∈ showByte junk c, Printable x := by
  rw [showByte_plain junk h]
  have : ∀ n < 256, Plain (UInt8.ofNat n) → ∀ x ∈ showByte [] (UInt8.ofNat n), Printable x := by decide +kernel
  have := this c.toNat c.toNat_lt
  simp only [UInt8.ofNat_toNat] at this
  exact this h

theorem readQuoted_show (junk : Bytes) {a : Bytes} (h : ∀ c ∈ a, Plain c) (r : Bytes) :
    readQuoted (a.flatMap (showByte junk) ++ 34 :: r) = some (a, r) := by
  induction a with
  | nil => rfl
  | cons c a ih =>
    have hc := h c List.mem_cons_self
    have ih' := ih fun c hc => h c (List.mem_cons_of_mem _ hc)
    rw [List.flatMap_cons, showByte_plain junk hc, List.append_assoc]
    by_cases h1 : c = 10
    · subst h1
      have : readQuoted (92 :: 110 :: (a.flatMap (showByte junk) ++ 34 :: r)) = some (10 :: a, r) := by simp [readQuoted, ih']
      exact this
    by_cases h2 : c = 13
    · subst h2
      have : readQuoted (92 :: 114 :: (a.flatMap (showByte junk) ++ 34 :: r)) = some (13 :: a, r) := by simp [readQuoted, ih']
      exact this
    by_cases h3 : c = 9
    · subst h3
      have : readQuoted (92 :: 116 :: (a.flatMap (showByte junk) ++ 34 :: r)) = some (9 :: a, r) := by simp [readQuoted, ih']
      exact this
    by_cases h4 : c = 34
    · subst h4
      have : readQuoted (92 :: 34 :: (a.flatMap (showByte junk) ++ 34 :: r)) = some (34 :: a, r) := by simp [readQuoted, ih']
      exact this
    by_cases h5 : c = 92
    · subst h5
      have : readQuoted (92 :: 92 :: (a.flatMap (showByte junk) ++ 34 :: r)) = some (92 :: a, r) := by simp [readQuoted, ih']
      exact this
    have hp : ¬ (c < 32 ∨ c ≥ 127) := by
      have : ∀ n < 256, (Plain (UInt8.ofNat n) ∧ UInt8.ofNat n ≠ 10 ∧ UInt8.ofNat n ≠ 13 ∧ UInt8.ofNat n ≠ 9) →
        ¬ (UInt8.ofNat n < 32 ∨ UInt8.ofNat n ≥ 127) := by decide +kernel
      have := this c.toNat c.toNat_lt
      simp only [UInt8.ofNat_toNat] at this
      exact this ⟨hc, h1, h2, h3⟩
    have hs : showByte [] c = [c] := by simp only [showByte, if_neg h1, if_neg h2, if_neg h3, if_neg h4, if_neg h5, if_neg hp]
    rw [hs, List.singleton_append]
    rw [readQuoted.eq_7 _ _ (fun h => h4 h) (fun r' h _ => h5 h) (fun r' h _ => h5 h) (fun r' h _ => h5 h) (fun c' r' h _ => h5 h), ih']
    rfl

theorem readLine_show (junk : Bytes) (args : List Bytes) (h : ∀ a ∈ args, ∀ c ∈ a, Plain c) :
    readLine args.length (showArgs junk args ++ [13, 10]) = some args := by
  induction args with
  | nil => rfl
  | cons a l ih =>
    have e : showArgs junk (a :: l) ++ [13, 10] = 32 :: 34 :: (a.flatMap (showByte junk) ++ 34 :: (showArgs junk l ++ [13, 10])) := by
      simp only [showArgs, List.flatMap_cons, List.append_assoc, List.cons_append, List.nil_append]
    rw [e, List.length_cons, readLine, readQuoted_show junk (h a List.mem_cons_self)]
    simp only [Option.bind_some]
    rw [ih fun a ha => h a (List.mem_cons_of_mem _ ha)]
    rfl

/-- **C54, partial.**  A command whose arguments consist of printable characters, tabs, newlines and carriage returns is shown as one line of
printable characters, ended by CR LF, from which the arguments can be read back.  Missing: the other bytes, see `monitor_leaks`. -/
theorem monitor_line_partial (junk head : Bytes) (args : List Bytes) (h : ∀ a ∈ args, ∀ c ∈ a, Plain c) {line : Bytes}
    (hl : monitorCmd true junk head args = some line) :
    ∃ text, line = head ++ text ++ [13, 10] ∧ (∀ c ∈ text, Printable c) ∧ readLine args.length (text ++ [13, 10]) = some args := by
  unfold monitorCmd at hl
  simp only [Bool.not_true, Bool.false_eq_true, if_false] at hl
  split at hl
  · cases hl
  · refine ⟨showArgs junk args, (Option.some.inj hl).symm, ?_, readLine_show junk args h⟩
    intro c hc
    simp only [showArgs, List.mem_flatMap, List.mem_append, List.mem_cons, List.not_mem_nil, or_false] at hc
    obtain ⟨a, ha, (hc | ⟨x, hx, hc⟩) | hc⟩ := hc
    · rcases hc with rfl | rfl <;> decide
    · exact showByte_printable junk (h a ha x hx) c hc
    · rw [hc]; decide

/-- `set "a b\n" \` -/
example : (∀ a ∈ [[115, 101, 116], [34, 97, 32, 98, 10, 34], [92]], ∀ c ∈ a, Plain c) ∧
    monitorCmd true [1, 2, 3] [43, 49] [[115, 101, 116], [34, 97, 32, 98, 10, 34], [92]] =
      some [43, 49, 32, 34, 115, 101, 116, 34, 32, 34, 92, 34, 97, 32, 98, 92, 110, 92, 34, 34, 32, 34, 92, 92, 34, 13, 10] := by
  decide +kernel

/-- A password is not shown: a command spelled `auth`, in small or capital letters, shows nothing, whatever its other arguments. -/
theorem auth_not_shown (watching : Bool) (junk head name : Bytes) (rest : List Bytes) (h : Spells name [97, 117, 116, 104]) :
    monitorCmd watching junk head (name :: rest) = none := by
  have hm : name.map lower = authName := by
    have key : ∀ {a b : Bytes}, Spells a b → (∀ y ∈ b, lower y = y) → a.map lower = b := by
      intro a b hs
      induction hs with
      | nil => intro _; rfl
      | @cons x y a b h1 _ ih =>
        intro hb
        rw [List.map_cons, ih fun y hy => hb y (List.mem_cons_of_mem _ hy)]
        congr 1
        rcases h1 with rfl | ⟨i, hi, h1, h2⟩
        · exact hb _ List.mem_cons_self
        · have e1 : x = UInt8.ofNat (65 + i) := by rw [← h1]; simp
          have e2 : y = UInt8.ofNat (97 + i) := by rw [← h2]; simp
          rw [e1, e2]
          have : ∀ i < 26, lower (UInt8.ofNat (65 + i)) = UInt8.ofNat (97 + i) := by decide
          exact this i hi
    exact key h (by decide)
  have hlen : name.length = authName.length := by rw [← hm]; simp
  have : argsEq (name :: rest) 0 authName = true := by
    simp only [argsEq, List.getElem?_cons_zero, hlen, hm, decide_true, Bool.true_and, decide_eq_true_eq]
    decide
  unfold monitorCmd
  rw [this]
  cases watching <;> simp

/-- `AuTh`. -/
example : Spells [65, 117, 84, 104] [97, 117, 116, 104] :=
  .cons (.inr ⟨0, by decide, rfl, rfl⟩) (.cons (.inl rfl) (.cons (.inr ⟨19, by decide, rfl, rfl⟩) (.cons (.inl rfl) .nil)))

/-- **C54, negation.**  For a command with a byte outside of these (here: `get` of the key `é` in Latin 1) the line contains a NUL byte and then
three bytes that belong to the server's stack, whatever they are. -/
theorem monitor_leaks (j1 j2 j3 : UInt8) (head : Bytes) :
    monitorCmd true [j1, j2, j3] head [[103, 101, 116], [233]] =
      some (head ++ [32, 34, 103, 101, 116, 34, 32, 34, 92, 120, 69, 57, 0, j1, j2, j3, 34] ++ [13, 10]) := by
  rfl

/-- So what is shown for one command may be two lines: if the stack happens to hold a line break. -/
theorem monitor_two_lines :
    ∃ line, monitorCmd true [13, 10, 43] [43, 49] [[233]] = some (line ++ [13, 10]) ∧ [13, 10] <:+: line :=
  ⟨[43, 49, 32, 34, 92, 120, 69, 57, 0, 13, 10, 43, 34], rfl, [43, 49, 32, 34, 92, 120, 69, 57, 0], [43, 34], rfl⟩

end Verif.Main.Monitor
