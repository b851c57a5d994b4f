import Mathlib.Tactic.Linarith
import Mathlib.Tactic.NormNum
import Mathlib.Tactic.Positivity
import Mathlib.Tactic.FieldSimp
import Mathlib.Data.Rat.Floor
import Mathlib.Algebra.Order.Floor.Semiring
import Verif.Basic

/-!
C94: the option `--maxmemory` and the low memory mode, `/repo/src/main.c`.  `double` numbers are rationals, rounded by a function `fl` about which only `Doubles` is
known; exponents are unbounded (numbers too large for a `double` are also too large for the limit).
-/

namespace Verif.Main

/-- `isspace` in the C locale. -/
def isSpace (b : UInt8) : Bool := b = 32 || (9 ≤ b && b ≤ 13)

/-- `tolower` in the C locale. -/
def toLow (b : UInt8) : UInt8 := if 65 ≤ b ∧ b ≤ 90 then b + 32 else b

/-- The macro `exteq`, `/repo/src/main.c:206-207`; the string ends at its NUL. -/
def exteq (e : Bytes) (c : UInt8) : Bool :=
  match e with
  | [a] => toLow a = c
  | [a, b] => toLow a = c && toLow b = 98
  | _ => false

/-- Result of `calc_memlimit`: a limit, the exit with "Invalid maxmemory", or a conversion whose result C does not define. -/
inductive Lim where
  | bytes (n : Nat)
  | invalid
  | undefined
deriving DecidableEq, Repr

/-- Conversion of a positive `double` to `size_t`. -/
def toSize (x : Rat) : Lim := if x < 2 ^ 64 then .bytes ⌊x⌋₊ else .undefined

/-- "unlimited", `/repo/src/main.c:190`. -/
def noLimit : Bytes := [117, 110, 108, 105, 109, 105, 116, 101, 100]

/-- `calc_memlimit`, `/repo/src/main.c:189-226`.  `strtod` gives the number and the rest of the text; `none` stands for an error (`errno`) and for values that are
not finite. -/
def calcMemlimit (fl : Rat → Rat) (strtod : Bytes → Option (Rat × Bytes)) (sysmem : Nat) (s : Bytes) : Lim :=
  if s = noLimit then .bytes (2 ^ 64 - 1)
  else
    match strtod (s.dropWhile isSpace) with
    | none => .invalid
    | some (mem, rest) =>
      if ¬ mem > 0 then .invalid
      else
        let e := rest.dropWhile isSpace
        if e = [] then toSize mem
        else if e = [37] then toSize (fl (fl (mem / 100) * fl sysmem))
        else if exteq e 107 then toSize (fl (mem * 1024))
        else if exteq e 109 then toSize (fl (fl (mem * 1024) * 1024))
        else if exteq e 103 then toSize (fl (fl (fl (mem * 1024) * 1024) * 1024))
        else if exteq e 116 then toSize (fl (fl (fl (fl (mem * 1024) * 1024) * 1024) * 1024))
        else .invalid

/-- A round of `memticker`, `/repo/src/main.c:341-359`: the flag `lowmem` after a look at the memory in use. -/
def memTick (limit : Nat) (low : Bool) (rss : Nat) : Bool :=
  if limit < 2 ^ 64 - 1 then
    if low = false then
      if rss > limit then true else low
    else
      if rss < limit then false else low
  else low

/-! ### What is assumed of `double` and `strtod` -/

/-- Rounding to the nearest number with 53 binary digits. -/
structure Doubles (fl : Rat → Rat) : Prop where
  mono : ∀ x y, x ≤ y → fl x ≤ fl y
  near : ∀ x, 0 ≤ x → |fl x - x| ≤ x / 2 ^ 53
  small : ∀ n : Nat, n < 2 ^ 53 → fl n = n
  scaled : ∀ x, fl (fl x * 1024) = fl x * 1024

/-- A digit. -/
def Digit (b : UInt8) : Prop := 48 ≤ b ∧ b ≤ 57

/-- The number written by digits. -/
def num (ds : Bytes) : Nat := ds.foldl (fun a b => a * 10 + (b.toNat - 48)) 0

/-- Bytes that may go on a number: digits, `.`, `e`, `E`, `x`, `X`, `p`, `P`. -/
def goesOn : Bytes := [48, 49, 50, 51, 52, 53, 54, 55, 56, 57, 46, 101, 69, 120, 88, 112, 80]

/-- Bytes a number may start with: digits, `.`, `+`, `-`, and the letters of `inf` and `nan`. -/
def starts : Bytes := [48, 49, 50, 51, 52, 53, 54, 55, 56, 57, 46, 43, 45, 105, 73, 110, 78]

/-- Decimal numbers are read to their end and rounded; what starts with none of the bytes of a number is not read. -/
structure Reads (fl : Rat → Rat) (strtod : Bytes → Option (Rat × Bytes)) : Prop where
  whole : ∀ ds rest, ds ≠ [] → (∀ b ∈ ds, Digit b) → (∀ b ∈ rest.head?, b ∉ goesOn) → num ds < 2 ^ 200 → strtod (ds ++ rest) = some (fl (num ds), rest)
  part : ∀ ds fs rest, ds ≠ [] → (∀ b ∈ ds, Digit b) → fs ≠ [] → (∀ b ∈ fs, Digit b) → (∀ b ∈ rest.head?, b ∉ goesOn) → num ds < 2 ^ 200 → fs.length < 300 →
    strtod (ds ++ 46 :: fs ++ rest) = some (fl (num ds + num fs / 10 ^ fs.length), rest)
  nothing : ∀ s, (∀ b ∈ s.head?, b ∉ starts) → strtod s = some (0, s)

/-! ### What the option means -/

/-- The units, and how many bytes they are: none, `k`, `kb`, `m`, `mb`, `g`, `gb`, `t`, `tb`. -/
def units : List (Bytes × Nat) :=
  [([], 1), ([107], 2 ^ 10), ([107, 98], 2 ^ 10), ([109], 2 ^ 20), ([109, 98], 2 ^ 20), ([103], 2 ^ 30), ([103, 98], 2 ^ 30), ([116], 2 ^ 40), ([116, 98], 2 ^ 40)]

/-- The same letter, maybe in upper case. -/
def Letter (b low : UInt8) : Prop := b = low ∨ (97 ≤ low ∧ low ≤ 122 ∧ b.toNat + 32 = low.toNat)

/-- `u` is a unit of `n` bytes, in any case. -/
def Unit (u : Bytes) (n : Nat) : Prop := ∃ low, (low, n) ∈ units ∧ List.Forall₂ Letter u low

/-- Spaces. -/
def Blank (s : Bytes) : Prop := ∀ b ∈ s, b = 32 ∨ (9 ≤ b ∧ b ≤ 13)

theorem toLow_letter {b low : UInt8} (hl : 97 ≤ low ∧ low ≤ 122) (h : Letter b low) : toLow b = low := by
  rcases h with rfl | ⟨_, _, h3⟩
  · unfold toLow
    rw [if_neg]
    rintro ⟨_, h⟩
    have h1 := UInt8.le_iff_toNat_le.1 h
    have h2 := UInt8.le_iff_toNat_le.1 hl.1
    simp only [UInt8.reduceToNat] at h1 h2
    omega
  · have h1 := UInt8.le_iff_toNat_le.1 hl.1
    have h2 := UInt8.le_iff_toNat_le.1 hl.2
    simp only [UInt8.reduceToNat] at h1 h2
    unfold toLow
    rw [if_pos]
    · apply UInt8.toNat_inj.1
      rw [UInt8.toNat_add]
      simp only [UInt8.reduceToNat]
      omega
    · constructor <;> rw [UInt8.le_iff_toNat_le] <;> simp only [UInt8.reduceToNat] <;> omega

theorem blank_all {s : Bytes} (h : Blank s) : ∀ b ∈ s, isSpace b = true := by
  intro b hb
  unfold isSpace
  rcases h b hb with rfl | ⟨h1, h2⟩
  · decide
  · simp [h1, h2]

theorem drop_blank {s t : Bytes} (h : Blank s) (ht : ∀ b ∈ t.head?, isSpace b = false) : (s ++ t).dropWhile isSpace = t := by
  rw [List.dropWhile_append_of_pos (blank_all h)]
  cases t with
  | nil => rfl
  | cons b t => rw [List.dropWhile_cons_of_neg]; simpa using ht b rfl

theorem digit_not_space {b : UInt8} (h : Digit b) : isSpace b = false := by
  obtain ⟨h1, h2⟩ := h
  have h1 := UInt8.le_iff_toNat_le.1 h1
  simp only [UInt8.reduceToNat] at h1
  unfold isSpace
  rw [Bool.or_eq_false_iff]
  constructor
  · simp only [decide_eq_false_iff_not]; rintro rfl; simp at h1
  · rw [Bool.and_eq_false_iff]
    right
    simp only [decide_eq_false_iff_not]
    intro h
    have := UInt8.le_iff_toNat_le.1 h
    simp only [UInt8.reduceToNat] at this
    omega

theorem digits_not_unlimited {ds t : Bytes} {sp : Bytes} (hsp : Blank sp) (h0 : ds ≠ []) (hd : ∀ b ∈ ds, Digit b) : sp ++ ds ++ t ≠ noLimit := by
  intro h
  cases sp with
  | nil =>
    cases ds with
    | nil => exact h0 rfl
    | cons b ds =>
      have := hd b (by simp)
      rw [List.nil_append, List.cons_append] at h
      unfold noLimit at h
      injection h with h1 h2
      subst h1
      exact absurd this.2 (by decide)
  | cons b sp =>
    have := blank_all hsp b (by simp)
    rw [List.cons_append, List.cons_append] at h
    unfold noLimit at h
    injection h with h1 h2
    subst h1
    exact absurd this (by decide)

/-- What follows the number. -/
def scaleBy (fl : Rat → Rat) (sysmem : Nat) (mem : Rat) (e : Bytes) : Lim :=
  if e = [] then toSize mem
  else if e = [37] then toSize (fl (fl (mem / 100) * fl sysmem))
  else if exteq e 107 then toSize (fl (mem * 1024))
  else if exteq e 109 then toSize (fl (fl (mem * 1024) * 1024))
  else if exteq e 103 then toSize (fl (fl (fl (mem * 1024) * 1024) * 1024))
  else if exteq e 116 then toSize (fl (fl (fl (fl (mem * 1024) * 1024) * 1024) * 1024))
  else .invalid

theorem keeps {fl : Rat → Rat} (hf : Doubles fl) {y : Rat} (h : fl y = y) : fl (y * 1024) = y * 1024 := by
  have := hf.scaled y
  rwa [h] at this

theorem scaled2 {fl : Rat → Rat} (hf : Doubles fl) (x : Rat) : fl (fl (fl x * 1024) * 1024) = fl x * 1024 * 1024 := by
  rw [show fl (fl x * 1024) = fl x * 1024 from hf.scaled x]
  exact keeps hf (hf.scaled x)

theorem scaled3 {fl : Rat → Rat} (hf : Doubles fl) (x : Rat) : fl (fl (fl (fl x * 1024) * 1024) * 1024) = fl x * 1024 * 1024 * 1024 := by
  rw [show fl (fl (fl x * 1024) * 1024) = fl x * 1024 * 1024 from scaled2 hf x]
  exact keeps hf (keeps hf (hf.scaled x))

theorem scaled4 {fl : Rat → Rat} (hf : Doubles fl) (x : Rat) : fl (fl (fl (fl (fl x * 1024) * 1024) * 1024) * 1024) = fl x * 1024 * 1024 * 1024 * 1024 := by
  rw [show fl (fl (fl (fl x * 1024) * 1024) * 1024) = fl x * 1024 * 1024 * 1024 from scaled3 hf x]
  exact keeps hf (keeps hf (keeps hf (hf.scaled x)))

theorem exteq_letters {u : Bytes} {c : UInt8} (hc : 97 ≤ c ∧ c ≤ 122) (h : List.Forall₂ Letter u [c] ∨ List.Forall₂ Letter u [c, 98]) :
    exteq u c = true ∧ ∀ c', c' ≠ c → exteq u c' = false := by
  rcases h with h | h
  · cases h with
    | cons h1 h2 =>
      cases h2
      have := toLow_letter hc h1
      unfold exteq
      simp only [this, decide_true, true_and]
      intro c' hc'
      simp [Ne.symm hc']
  · cases h with
    | cons h1 h2 =>
      cases h2 with
      | cons h3 h4 =>
        cases h4
        have := toLow_letter hc h1
        have h5 := toLow_letter (by decide) h3
        unfold exteq
        simp only [this, h5, decide_true, Bool.and_true, true_and]
        intro c' hc'
        simp [Ne.symm hc']

theorem exteq_ne {u : Bytes} {c : UInt8} (hc : c ≠ 37) (h : exteq u c = true) : u ≠ [] ∧ u ≠ [37] := by
  constructor
  · rintro rfl; cases h
  · rintro rfl
    unfold exteq at h
    simp only [decide_eq_true_eq] at h
    exact hc (by rw [← h]; decide)

/-- A unit multiplies. -/
theorem scale_unit {fl : Rat → Rat} (hf : Doubles fl) (sysmem : Nat) (x : Rat) {u : Bytes} {n : Nat} (h : Unit u n) : scaleBy fl sysmem (fl x) u = toSize (fl x * n) := by
  obtain ⟨low, hm, hu⟩ := h
  have key : ∀ c : UInt8, c ≠ 37 → (97 ≤ c ∧ c ≤ 122) → (low = [c] ∨ low = [c, 98]) → (exteq u c = true ∧ ∀ c', c' ≠ c → exteq u c' = false) ∧ u ≠ [] ∧ u ≠ [37] := by
    intro c h37 hc hl
    have := exteq_letters (u := u) hc (by rcases hl with rfl | rfl; exacts [.inl hu, .inr hu])
    exact ⟨this, exteq_ne h37 this.1⟩
  have kk : (low = [107] ∨ low = [107, 98]) → scaleBy fl sysmem (fl x) u = toSize (fl x * (2 ^ 10 : Nat)) := by
    intro hl
    obtain ⟨⟨h1, _⟩, h3, h4⟩ := key 107 (by decide) (by decide) hl
    unfold scaleBy
    rw [if_neg h3, if_neg h4, if_pos h1, hf.scaled]
    congr 1
  have mm : (low = [109] ∨ low = [109, 98]) → scaleBy fl sysmem (fl x) u = toSize (fl x * (2 ^ 20 : Nat)) := by
    intro hl
    obtain ⟨⟨h1, h2⟩, h3, h4⟩ := key 109 (by decide) (by decide) hl
    unfold scaleBy
    rw [if_neg h3, if_neg h4, if_neg (by rw [h2 107 (by decide)]; simp), if_pos h1, scaled2 hf]
    congr 1
    norm_num
    ring
  have gg : (low = [103] ∨ low = [103, 98]) → scaleBy fl sysmem (fl x) u = toSize (fl x * (2 ^ 30 : Nat)) := by
    intro hl
    obtain ⟨⟨h1, h2⟩, h3, h4⟩ := key 103 (by decide) (by decide) hl
    unfold scaleBy
    rw [if_neg h3, if_neg h4, if_neg (by rw [h2 107 (by decide)]; simp), if_neg (by rw [h2 109 (by decide)]; simp), if_pos h1, scaled3 hf]
    congr 1
    norm_num
    ring
  have tt : (low = [116] ∨ low = [116, 98]) → scaleBy fl sysmem (fl x) u = toSize (fl x * (2 ^ 40 : Nat)) := by
    intro hl
    obtain ⟨⟨h1, h2⟩, h3, h4⟩ := key 116 (by decide) (by decide) hl
    unfold scaleBy
    rw [if_neg h3, if_neg h4, if_neg (by rw [h2 107 (by decide)]; simp), if_neg (by rw [h2 109 (by decide)]; simp), if_neg (by rw [h2 103 (by decide)]; simp), if_pos h1,
      scaled4 hf]
    congr 1
    norm_num
    ring
  simp only [units, List.mem_cons, List.not_mem_nil, or_false, Prod.mk.injEq] at hm
  rcases hm with ⟨hl, rfl⟩ | ⟨hl, rfl⟩ | ⟨hl, rfl⟩ | ⟨hl, rfl⟩ | ⟨hl, rfl⟩ | ⟨hl, rfl⟩ | ⟨hl, rfl⟩ | ⟨hl, rfl⟩ | ⟨hl, rfl⟩
  · subst hl
    cases hu
    unfold scaleBy
    simp
  · exact kk (.inl hl)
  · exact kk (.inr hl)
  · exact mm (.inl hl)
  · exact mm (.inr hl)
  · exact gg (.inl hl)
  · exact gg (.inr hl)
  · exact tt (.inl hl)
  · exact tt (.inr hl)

theorem letter_head {u : Bytes} {n : Nat} (h : Unit u n) : ∀ b ∈ u.head?, isSpace b = false ∧ b ∉ goesOn := by
  obtain ⟨low, hm, hu⟩ := h
  intro b hb
  cases hu with
  | nil => cases hb
  | @cons a c u' low' h1 _ =>
    obtain rfl := Option.mem_some_iff.1 hb
    have hc : c = 107 ∨ c = 109 ∨ c = 103 ∨ c = 116 := by
      simp only [units, List.mem_cons, List.not_mem_nil, or_false, Prod.mk.injEq, List.cons.injEq] at hm
      rcases hm with hm | hm | hm | hm | hm | hm | hm | hm | hm <;> first | (obtain ⟨⟨h, _⟩, _⟩ := hm; simp [h]) | (obtain ⟨h, _⟩ := hm; simp at h)
    have ha : a = 107 ∨ a = 109 ∨ a = 103 ∨ a = 116 ∨ a = 75 ∨ a = 77 ∨ a = 71 ∨ a = 84 := by
      rcases h1 with rfl | ⟨_, _, h3⟩
      · rcases hc with rfl | rfl | rfl | rfl <;> simp
      · rcases hc with rfl | rfl | rfl | rfl <;> simp only [UInt8.reduceToNat] at h3
        · have : a = 75 := UInt8.toNat_inj.1 (by simp; omega)
          simp [this]
        · have : a = 77 := UInt8.toNat_inj.1 (by simp; omega)
          simp [this]
        · have : a = 71 := UInt8.toNat_inj.1 (by simp; omega)
          simp [this]
        · have : a = 84 := UInt8.toNat_inj.1 (by simp; omega)
          simp [this]
    rcases ha with rfl | rfl | rfl | rfl | rfl | rfl | rfl | rfl <;> decide

theorem head_after {sp t : Bytes} (hsp : Blank sp) (ht : ∀ b ∈ t.head?, b ∉ goesOn) : ∀ b ∈ (sp ++ t).head?, b ∉ goesOn := by
  cases sp with
  | nil => exact ht
  | cons a sp =>
    intro b hb
    obtain rfl := Option.mem_some_iff.1 hb
    intro hg
    have h1 := blank_all hsp a (by simp)
    have : ∀ x ∈ goesOn, isSpace x = false := by decide
    rw [this a hg] at h1
    cases h1

/-- The text is a number, read as `x`, followed by `e`. -/
theorem calc_read {fl : Rat → Rat} {strtod : Bytes → Option (Rat × Bytes)} {sysmem : Nat} {s : Bytes} {x : Rat} {rest e : Bytes} (hs : s ≠ noLimit)
    (hr : strtod (s.dropWhile isSpace) = some (x, rest)) (he : rest.dropWhile isSpace = e) (hx : 0 < x) : calcMemlimit fl strtod sysmem s = scaleBy fl sysmem x e := by
  unfold calcMemlimit
  rw [if_neg hs, hr]
  simp only []
  rw [if_neg (by simpa using hx), he]
  rfl

theorem whole_read {fl : Rat → Rat} {strtod : Bytes → Option (Rat × Bytes)} (hf : Doubles fl) (hr : Reads fl strtod) {sysmem : Nat} {sp ds sp' u : Bytes} (hsp : Blank sp)
    (h0 : ds ≠ []) (hd : ∀ b ∈ ds, Digit b) (hsp' : Blank sp') (hu : ∀ b ∈ u.head?, isSpace b = false ∧ b ∉ goesOn) (hpos : 0 < num ds) (hlt : num ds < 2 ^ 53) :
    calcMemlimit fl strtod sysmem (sp ++ ds ++ (sp' ++ u)) = scaleBy fl sysmem (fl (num ds)) u := by
  have hdrop : (sp ++ ds ++ (sp' ++ u)).dropWhile isSpace = ds ++ (sp' ++ u) := by
    rw [List.append_assoc]
    refine drop_blank hsp ?_
    cases ds with
    | nil => exact absurd rfl h0
    | cons b ds => intro b' hb'; obtain rfl := Option.mem_some_iff.1 hb'; exact digit_not_space (hd _ (by simp))
  refine calc_read (rest := sp' ++ u) (digits_not_unlimited hsp h0 hd) ?_ (drop_blank hsp' fun b hb => (hu b hb).1) ?_
  · rw [hdrop]
    exact hr.whole ds _ h0 hd (head_after hsp' fun b hb => (hu b hb).2) (lt_trans hlt (Nat.pow_lt_pow_right (by omega) (by omega)))
  · rw [hf.small _ hlt]; exact_mod_cast hpos

/-- **C94.**  A whole number with a unit (`--maxmemory 512mb`, `2 G`, `1048576`) is a limit of exactly that many bytes. -/
theorem maxmemory_exact {fl : Rat → Rat} {strtod : Bytes → Option (Rat × Bytes)} (hf : Doubles fl) (hr : Reads fl strtod) (sysmem : Nat) {sp ds sp' u : Bytes} {n : Nat}
    (hsp : Blank sp) (h0 : ds ≠ []) (hd : ∀ b ∈ ds, Digit b) (hsp' : Blank sp') (hu : Unit u n) (hpos : 0 < num ds) (hlt : num ds < 2 ^ 53) (hfit : num ds * n < 2 ^ 64) :
    calcMemlimit fl strtod sysmem (sp ++ ds ++ (sp' ++ u)) = .bytes (num ds * n) := by
  rw [whole_read hf hr hsp h0 hd hsp' (letter_head hu) hpos hlt, scale_unit hf sysmem _ hu, hf.small _ hlt]
  unfold toSize
  rw [if_pos (by exact_mod_cast hfit)]
  congr 1
  rw [← Nat.cast_mul, Nat.floor_natCast]

theorem near_pos {fl : Rat → Rat} (hf : Doubles fl) {x : Rat} (h : 0 < x) : 0 < fl x := by
  have h1 := (abs_le.1 (hf.near x h.le)).1
  have h2 : x / 2 ^ 53 < x := div_lt_self h (by norm_num)
  linarith

/-- **C94.**  A percentage is a limit of that part of the memory of the system, up to a byte and a half. -/
theorem maxmemory_percent {fl : Rat → Rat} {strtod : Bytes → Option (Rat × Bytes)} (hf : Doubles fl) (hr : Reads fl strtod) (sysmem : Nat) {sp ds sp' : Bytes}
    (hsp : Blank sp) (h0 : ds ≠ []) (hd : ∀ b ∈ ds, Digit b) (hsp' : Blank sp') (hpos : 0 < num ds) (hlt : num ds < 2 ^ 53) (hfit : num ds * sysmem ≤ 100 * 2 ^ 50) :
    ∃ L, calcMemlimit fl strtod sysmem (sp ++ ds ++ (sp' ++ [37])) = .bytes L ∧ |(L : Rat) - num ds * sysmem / 100| ≤ 3 / 2 := by
  rw [whole_read hf hr hsp h0 hd hsp' (by intro b hb; obtain rfl := Option.mem_some_iff.1 hb; decide) hpos hlt, hf.small _ hlt]
  unfold scaleBy
  rw [if_neg (by simp), if_pos rfl]
  generalize num ds = n at *
  have hA : (0 : Rat) ≤ (n : Rat) / 100 := by positivity
  have hB : (0 : Rat) ≤ (sysmem : Rat) := by positivity
  have hX : (n : Rat) / 100 * sysmem ≤ 2 ^ 50 := by
    have : (n : Rat) * sysmem ≤ 100 * 2 ^ 50 := by exact_mod_cast hfit
    linarith
  have hX0 : (0 : Rat) ≤ (n : Rat) / 100 * sysmem := mul_nonneg hA hB
  rw [show (n : Rat) * sysmem / 100 = (n : Rat) / 100 * sysmem by ring]
  generalize (n : Rat) / 100 = A at *
  generalize (sysmem : Rat) = B at *
  have ha := abs_le.1 (hf.near A hA)
  have hb := abs_le.1 (hf.near B hB)
  have ha0 : 0 ≤ fl A := by
    have : A / 2 ^ 53 ≤ A := div_le_self hA (by norm_num)
    linarith [ha.1]
  have hb0 : 0 ≤ fl B := by
    have : B / 2 ^ 53 ≤ B := div_le_self hB (by norm_num)
    linarith [hb.1]
  have hab0 := mul_nonneg ha0 hb0
  have hc := abs_le.1 (hf.near (fl A * fl B) hab0)
  have hup : fl A * fl B ≤ (A + A / 2 ^ 53) * (B + B / 2 ^ 53) := mul_le_mul (by linarith [ha.2]) (by linarith [hb.2]) hb0 (by positivity)
  have hdown : (A - A / 2 ^ 53) * (B - B / 2 ^ 53) ≤ fl A * fl B := by
    refine mul_le_mul (by linarith [ha.1]) (by linarith [hb.1]) ?_ ha0
    have : B / 2 ^ 53 ≤ B := div_le_self hB (by norm_num)
    linarith
  have e1 : (A + A / 2 ^ 53) * (B + B / 2 ^ 53) = A * B * (1 + 1 / 2 ^ 53) ^ 2 := by ring
  have e2 : (A - A / 2 ^ 53) * (B - B / 2 ^ 53) = A * B * (1 - 1 / 2 ^ 53) ^ 2 := by ring
  rw [e1] at hup
  rw [e2] at hdown
  generalize fl A * fl B = Y at *
  have hY1 : Y ≤ A * B + 1 / 4 + 1 / 100 := by nlinarith
  have hY2 : A * B - 1 / 4 - 1 / 100 ≤ Y := by nlinarith
  have hc1 : fl Y ≤ A * B + 1 / 2 := by
    have : Y / 2 ^ 53 ≤ 1 / 8 + 1 / 100 := by rw [div_le_iff₀ (by norm_num)]; norm_num; linarith
    linarith [hc.2]
  have hc2 : A * B - 1 / 2 ≤ fl Y := by
    have : Y / 2 ^ 53 ≤ 1 / 8 + 1 / 100 := by rw [div_le_iff₀ (by norm_num)]; norm_num; linarith
    linarith [hc.1]
  have hc0 : 0 ≤ fl Y := by
    have : Y / 2 ^ 53 ≤ Y := div_le_self hab0 (by norm_num)
    linarith [hc.1]
  refine ⟨⌊fl Y⌋₊, ?_, ?_⟩
  · unfold toSize
    rw [if_pos]
    have : (2 : Rat) ^ 50 + 1 / 2 < 2 ^ 64 := by norm_num
    linarith
  · have f1 := Nat.floor_le hc0
    have f2 := Nat.lt_floor_add_one (fl Y)
    rw [abs_le]
    constructor <;> linarith

/-- **C94.**  A number with a fraction and a unit (`--maxmemory 1.5gb`) is a limit of that many bytes, up to a byte and the precision of a `double`. -/
theorem maxmemory_fraction {fl : Rat → Rat} {strtod : Bytes → Option (Rat × Bytes)} (hf : Doubles fl) (hr : Reads fl strtod) (sysmem : Nat) {sp ds fs sp' u : Bytes} {n : Nat}
    {x : Rat} (hsp : Blank sp) (h0 : ds ≠ []) (hd : ∀ b ∈ ds, Digit b) (hf0 : fs ≠ []) (hfd : ∀ b ∈ fs, Digit b) (hfl : fs.length < 300) (hsp' : Blank sp') (hu : Unit u n)
    (hx : x = num ds + num fs / 10 ^ fs.length) (hpos : 0 < x) (hlt : num ds < 2 ^ 53) (hfit : x * n ≤ 2 ^ 63) :
    ∃ L, calcMemlimit fl strtod sysmem (sp ++ ds ++ (46 :: fs ++ (sp' ++ u))) = .bytes L ∧ |(L : Rat) - x * n| ≤ 1 + x * n / 2 ^ 53 := by
  have hdrop : (sp ++ ds ++ (46 :: fs ++ (sp' ++ u))).dropWhile isSpace = ds ++ 46 :: fs ++ (sp' ++ u) := by
    rw [List.append_assoc, drop_blank hsp]
    · simp
    · cases ds with
      | nil => exact absurd rfl h0
      | cons b ds => intro b' hb'; obtain rfl := Option.mem_some_iff.1 hb'; exact digit_not_space (hd _ (by simp))
  have hlu := letter_head hu
  rw [calc_read (x := fl x) (rest := sp' ++ u) (e := u) (digits_not_unlimited hsp h0 hd) ?_ (drop_blank hsp' fun b hb => (hlu b hb).1) (near_pos hf hpos),
    scale_unit hf sysmem _ hu]
  · have h1 := abs_le.1 (hf.near x hpos.le)
    have hn : (0 : Rat) ≤ n := by positivity
    have h2 : fl x * n ≤ x * n + x * n / 2 ^ 53 := by
      have := mul_le_mul_of_nonneg_right (show fl x ≤ x + x / 2 ^ 53 by linarith [h1.2]) hn
      calc _ ≤ _ := this
        _ = _ := by ring
    have h3 : x * n - x * n / 2 ^ 53 ≤ fl x * n := by
      have := mul_le_mul_of_nonneg_right (show x - x / 2 ^ 53 ≤ fl x by linarith [h1.1]) hn
      calc _ = _ := by ring
        _ ≤ _ := this
    have h4 : x * n / 2 ^ 53 ≤ 2 ^ 10 := by rw [div_le_iff₀ (by norm_num)]; linarith
    have h5 : (0 : Rat) ≤ fl x * n := mul_nonneg (near_pos hf hpos).le hn
    refine ⟨⌊fl x * n⌋₊, ?_, ?_⟩
    · unfold toSize
      rw [if_pos]
      have : (2 : Rat) ^ 63 + 2 ^ 10 < 2 ^ 64 := by norm_num
      linarith
    · have f1 := Nat.floor_le h5
      have f2 := Nat.lt_floor_add_one (fl x * n)
      rw [abs_le]
      constructor <;> linarith
  · rw [hdrop, hx]
    exact hr.part ds fs _ h0 hd hf0 hfd (head_after hsp' fun b hb => (hlu b hb).2) (lt_trans hlt (Nat.pow_lt_pow_right (by omega) (by omega))) hfl

theorem letter_of_toLow {b c : UInt8} (hc : 97 ≤ c ∧ c ≤ 122) (h : toLow b = c) : Letter b c := by
  unfold toLow at h
  split at h
  · rename_i hb
    right
    refine ⟨hc.1, hc.2, ?_⟩
    rw [← h, UInt8.toNat_add]
    have h1 := UInt8.le_iff_toNat_le.1 hb.2
    simp only [UInt8.reduceToNat] at h1 ⊢
    omega
  · exact .inl h

theorem unit_of_exteq {u : Bytes} {c : UInt8} {n : Nat} (hc : 97 ≤ c ∧ c ≤ 122) (h1 : ([c], n) ∈ units) (h2 : ([c, 98], n) ∈ units) (h : exteq u c = true) : Unit u n := by
  unfold exteq at h
  split at h
  · exact ⟨[c], h1, .cons (letter_of_toLow hc (by simpa using h)) .nil⟩
  · rw [Bool.and_eq_true] at h
    exact ⟨[c, 98], h2, .cons (letter_of_toLow hc (by simpa using h.1)) (.cons (letter_of_toLow (by decide) (by simpa using h.2)) .nil)⟩
  · cases h

/-- **C94.**  A number followed by something that is neither a unit nor `%` is refused. -/
theorem maxmemory_refused {fl : Rat → Rat} {strtod : Bytes → Option (Rat × Bytes)} (hf : Doubles fl) (hr : Reads fl strtod) (sysmem : Nat) {sp ds sp' u : Bytes}
    (hsp : Blank sp) (h0 : ds ≠ []) (hd : ∀ b ∈ ds, Digit b) (hsp' : Blank sp') (hpos : 0 < num ds) (hlt : num ds < 2 ^ 53)
    (hh : ∀ b ∈ u.head?, isSpace b = false ∧ b ∉ goesOn) (hp : u ≠ [37]) (hu : ¬ ∃ n, Unit u n) :
    calcMemlimit fl strtod sysmem (sp ++ ds ++ (sp' ++ u)) = .invalid := by
  rw [whole_read hf hr hsp h0 hd hsp' hh hpos hlt]
  unfold scaleBy
  rw [if_neg, if_neg hp, if_neg, if_neg, if_neg, if_neg]
  · exact fun h => hu ⟨_, unit_of_exteq (n := 2 ^ 40) (by decide) (by decide) (by decide) h⟩
  · exact fun h => hu ⟨_, unit_of_exteq (n := 2 ^ 30) (by decide) (by decide) (by decide) h⟩
  · exact fun h => hu ⟨_, unit_of_exteq (n := 2 ^ 20) (by decide) (by decide) (by decide) h⟩
  · exact fun h => hu ⟨_, unit_of_exteq (n := 2 ^ 10) (by decide) (by decide) (by decide) h⟩
  · rintro rfl
    exact hu ⟨1, [], by decide, .nil⟩

/-- **C94.**  A text without a number is refused. -/
theorem maxmemory_no_number {fl : Rat → Rat} {strtod : Bytes → Option (Rat × Bytes)} (hr : Reads fl strtod) (sysmem : Nat) {s : Bytes} (hs : s ≠ noLimit)
    (h : ∀ b ∈ (s.dropWhile isSpace).head?, b ∉ starts) : calcMemlimit fl strtod sysmem s = .invalid := by
  unfold calcMemlimit
  rw [if_neg hs, hr.nothing _ h]
  simp

/-- **C94 is false for very large limits**: a number of bytes that does not fit 64 bits (`--maxmemory 16777216t`) is not refused, but converted, with a result C does not
define. -/
theorem maxmemory_too_large {fl : Rat → Rat} {strtod : Bytes → Option (Rat × Bytes)} (hf : Doubles fl) (hr : Reads fl strtod) (sysmem : Nat) :
    calcMemlimit fl strtod sysmem [49, 54, 55, 55, 55, 50, 49, 54, 116] = .undefined := by
  have h := whole_read hf hr (sysmem := sysmem) (sp := []) (ds := [49, 54, 55, 55, 55, 50, 49, 54]) (sp' := []) (u := [116]) (by simp [Blank]) (by simp)
    (by unfold Digit; decide) (by simp [Blank]) (by intro b hb; obtain rfl := Option.mem_some_iff.1 hb; decide) (by decide) (by decide)
  have hu : Unit [116] (2 ^ 40) := ⟨[116], by decide, .cons (.inl rfl) .nil⟩
  rw [show ([49, 54, 55, 55, 55, 50, 49, 54, 116] : Bytes) = [] ++ [49, 54, 55, 55, 55, 50, 49, 54] ++ ([] ++ [116]) from rfl, h, scale_unit hf sysmem _ hu, hf.small _ (by decide)]
  unfold toSize
  rw [if_neg]
  rw [show num [49, 54, 55, 55, 55, 50, 49, 54] = 2 ^ 24 by decide]
  norm_num

/-- `unlimited` is the largest number, which no other text gives. -/
theorem maxmemory_unlimited {fl : Rat → Rat} (strtod : Bytes → Option (Rat × Bytes)) (sysmem : Nat) : calcMemlimit fl strtod sysmem noLimit = .bytes (2 ^ 64 - 1) := by
  unfold calcMemlimit
  rw [if_pos rfl]

/-! ### Low memory mode -/

/-- **C94.**  The low memory mode is on exactly if, in some round, the memory in use was above the limit, and has not been seen below it since. -/
theorem lowmem_iff {limit : Nat} (h : limit < 2 ^ 64 - 1) (seen : List Nat) :
    seen.foldl (memTick limit) false = true ↔ ∃ a r b, seen = a ++ r :: b ∧ limit < r ∧ ∀ x ∈ b, limit ≤ x := by
  induction seen using List.reverseRecOn with
  | nil => simp
  | append_singleton l x ih =>
    rw [List.foldl_append, List.foldl_cons, List.foldl_nil]
    have hstep : memTick limit (l.foldl (memTick limit) false) x = true ↔ limit < x ∨ (limit ≤ x ∧ l.foldl (memTick limit) false = true) := by
      generalize l.foldl (memTick limit) false = low
      unfold memTick
      rw [if_pos h]
      cases low
      · simp
      · simp only [Bool.true_eq_false, if_false, and_true]
        by_cases hx : x < limit
        · rw [if_pos hx]; simp; omega
        · rw [if_neg hx]; simp; omega
    rw [hstep, ih]
    constructor
    · rintro (hx | ⟨hx, a, r, b, rfl, hr, hb⟩)
      · exact ⟨l, x, [], rfl, hx, by simp⟩
      · refine ⟨a, r, b ++ [x], by simp, hr, ?_⟩
        intro y hy
        rcases List.mem_append.1 hy with hy | hy
        · exact hb y hy
        · rw [List.mem_singleton.1 hy]; exact hx
    · rintro ⟨a, r, b, he, hr, hb⟩
      rcases List.eq_nil_or_concat b with rfl | ⟨b', y, rfl⟩
      · left
        have := List.append_inj_right' he (by simp)
        simp only [List.cons.injEq, and_true] at this
        rw [this]; exact hr
      · right
        rw [List.concat_eq_append, ← List.cons_append, ← List.append_assoc] at he
        have h1 := List.append_inj_left' he (by simp)
        have h2 := List.append_inj_right' he (by simp)
        simp only [List.cons.injEq, and_true] at h2
        refine ⟨by rw [h2]; exact hb y (by simp), a, r, b', h1, hr, fun z hz => hb z (by simp [hz])⟩

/-- **C94.**  Without a limit it is never on. -/
theorem unlimited_never_low (seen : List Nat) : seen.foldl (memTick (2 ^ 64 - 1)) false = false := by
  induction seen with
  | nil => rfl
  | cons x l ih => rw [List.foldl_cons]; exact ih

/-! ### Concrete cases -/

namespace Example

/-- A reader of decimal numbers. -/
def reader (s : Bytes) : Option (Rat × Bytes) :=
  let digit : UInt8 → Bool := fun b => 48 ≤ b && b ≤ 57
  let ds := s.takeWhile digit
  if ds = [] then some (0, s)
  else
    match s.dropWhile digit with
    | 46 :: r => some (num ds + num (r.takeWhile digit) / 10 ^ (r.takeWhile digit).length, r.dropWhile digit)
    | r => some (num ds, r)

theorem doubles_id : Doubles fun x => x :=
  ⟨fun _ _ h => h, fun x h => by simp only [sub_self, abs_zero]; positivity, fun _ _ => rfl, fun _ => rfl⟩

theorem digit_iff {b : UInt8} : (48 ≤ b && b ≤ 57) = true ↔ Digit b := by unfold Digit; simp

theorem of_digit {l : Bytes} (hl : ∀ i < 10, UInt8.ofNat (48 + i) ∈ l) (b : UInt8) (h : (48 ≤ b && b ≤ 57) = true) : b ∈ l := by
  obtain ⟨h1, h2⟩ := digit_iff.1 h
  have h1 := UInt8.le_iff_toNat_le.1 h1
  have h2 := UInt8.le_iff_toNat_le.1 h2
  simp only [UInt8.reduceToNat] at h1 h2
  have := hl (b.toNat - 48) (by omega)
  rwa [show 48 + (b.toNat - 48) = b.toNat by omega, UInt8.ofNat_toNat] at this

theorem take_digits {ds rest : Bytes} (hd : ∀ b ∈ ds, Digit b) (hr : ∀ b ∈ rest.head?, b ∉ goesOn) :
    (ds ++ rest).takeWhile (fun b => 48 ≤ b && b ≤ 57) = ds ∧ (ds ++ rest).dropWhile (fun b => 48 ≤ b && b ≤ 57) = rest := by
  have h1 : ∀ b ∈ ds, (fun b : UInt8 => (48 ≤ b && b ≤ 57 : Bool)) b = true := fun b hb => digit_iff.2 (hd b hb)
  rw [List.takeWhile_append_of_pos h1, List.dropWhile_append_of_pos h1]
  cases rest with
  | nil => simp
  | cons b r =>
    have hb : ¬ ((48 ≤ b && b ≤ 57 : Bool) = true) := by
      intro hc
      have h := hr b rfl
      have : ∀ b : UInt8, (48 ≤ b && b ≤ 57 : Bool) = true → b ∈ goesOn := fun b => of_digit (by decide) b
      exact h (this b hc)
    rw [List.takeWhile_cons_of_neg (by exact hb), List.dropWhile_cons_of_neg (by exact hb)]
    simp

theorem reads_reader : Reads (fun x => x) reader where
  whole := by
    intro ds rest h0 hd hr _
    obtain ⟨h1, h2⟩ := take_digits hd hr
    unfold reader
    simp only []
    rw [h1, h2, if_neg h0]
    split
    · exact absurd (hr 46 rfl) (by decide)
    · rfl
  part := by
    intro ds fs rest h0 hd hf0 hfd hr _ _
    have h1 : ∀ b ∈ ds, (fun b : UInt8 => (48 ≤ b && b ≤ 57 : Bool)) b = true := fun b hb => digit_iff.2 (hd b hb)
    obtain ⟨h3, h4⟩ := take_digits hfd hr
    unfold reader
    simp only []
    rw [List.append_assoc, List.takeWhile_append_of_pos h1, List.dropWhile_append_of_pos h1, List.cons_append, List.takeWhile_cons_of_neg (by decide),
      List.dropWhile_cons_of_neg (by decide), List.append_nil, if_neg h0]
    simp only []
    rw [h3, h4]
  nothing := by
    intro s h
    unfold reader
    simp only []
    rw [if_pos]
    cases s with
    | nil => rfl
    | cons b s =>
      rw [List.takeWhile_cons_of_neg]
      intro hc
      have : ∀ b : UInt8, (48 ≤ b && b ≤ 57 : Bool) = true → b ∈ starts := fun b => of_digit (by decide) b
      exact h b rfl (this b hc)

end Example

/-- Cases of the theorems above: `512mb`, ` 80%` of 1000 bytes, `1.5 G`, `10x`, and no number. -/
example : calcMemlimit (fun x => x) Example.reader 1000 [53, 49, 50, 109, 98] = .bytes 536870912 ∧
    (∃ L, calcMemlimit (fun x => x) Example.reader 1000 [32, 56, 48, 37] = .bytes L ∧ |(L : Rat) - 80 * 1000 / 100| ≤ 3 / 2) ∧
    (∃ L, calcMemlimit (fun x => x) Example.reader 1000 [49, 46, 53, 32, 71] = .bytes L ∧ |(L : Rat) - 3 / 2 * 2 ^ 30| ≤ 1 + 3 / 2 * 2 ^ 30 / 2 ^ 53) ∧
    calcMemlimit (fun x => x) Example.reader 1000 [49, 48, 121] = .invalid ∧ calcMemlimit (fun x => x) Example.reader 1000 [97, 98] = .invalid := by
  have hb : Blank [] := by simp [Blank]
  have hb1 : Blank [32] := by simp [Blank]
  refine ⟨?_, ?_, ?_, ?_, ?_⟩
  · exact maxmemory_exact Example.doubles_id Example.reads_reader 1000 (sp := []) (ds := [53, 49, 50]) (sp' := []) (u := [109, 98]) (n := 2 ^ 20) hb (by simp)
      (by unfold Digit; decide) hb ⟨_, by decide, .cons (.inl rfl) (.cons (.inl rfl) .nil)⟩ (by decide) (by decide) (by decide)
  · exact maxmemory_percent Example.doubles_id Example.reads_reader 1000 (sp := [32]) (ds := [56, 48]) (sp' := []) hb1 (by simp)
      (by unfold Digit; decide) hb (by decide) (by decide) (by decide)
  · have := maxmemory_fraction Example.doubles_id Example.reads_reader 1000 (sp := []) (ds := [49]) (fs := [53]) (sp' := [32]) (u := [71]) (n := 2 ^ 30) (x := 3 / 2) hb (by simp)
      (by unfold Digit; decide) (by simp) (by unfold Digit; decide) (by decide) hb1 ⟨[103], by decide, .cons (.inr (by decide)) .nil⟩ (by
        rw [show num [49] = 1 by decide, show num [53] = 5 by decide]; norm_num) (by norm_num) (by decide)
      (by norm_num)
    rwa [show ((2 ^ 30 : Nat) : Rat) = 2 ^ 30 by norm_num] at this
  · refine maxmemory_refused Example.doubles_id Example.reads_reader 1000 (sp := []) (ds := [49, 48]) (sp' := []) (u := [121]) hb (by simp)
      (by unfold Digit; decide) hb (by decide) (by decide) (by intro b hb; obtain rfl := Option.mem_some_iff.1 hb; decide) (by decide) ?_
    rintro ⟨n, low, hm, hu⟩
    cases hu with
    | @cons a c u' low' h1 h2 =>
      cases h2
      simp only [units, List.mem_cons, List.not_mem_nil, or_false, Prod.mk.injEq, List.cons.injEq] at hm
      rcases h1 with rfl | ⟨_, h3, h4⟩
      · simp at hm
      · have := UInt8.le_iff_toNat_le.1 h3
        simp only [UInt8.reduceToNat] at this h4
        omega
  · exact maxmemory_no_number Example.reads_reader 1000 (by decide) (by decide)

/-- Over the limit, then exactly at it: still on; then below: off. -/
example : [20, 10].foldl (memTick 10) false = true ∧ [20, 10, 9].foldl (memTick 10) false = false ∧ [10, 9].foldl (memTick 10) false = false := by decide

end Verif.Main
