import Verif.Entry.Lemmas

/-! Properties C02 (key comparison) and C03 (packed entries). -/

namespace Verif.Entry

open Verif.Num Verif.Sixpack

/-- What a user stored; flags are 32 bits and CAS tokens 64 bits wide. -/
structure Legal (fmt : Fmt) (key val : Bytes) (ex : Int) (flags cas : Nat) : Prop where
  ex64 : IsI64 ex
  flags32 : flags < 2 ^ 32
  cas64 : cas < 2 ^ 64
  /-- the whole allocation is addressable -/
  size64 : allocSize fmt key val ex flags < 2 ^ 64

/-- C03: reading an entry back returns what was stored; a non-positive expiry reads as 0 ("none");
without CAS support the token reads as 0; the recorded size is the allocated size. -/
theorem extract_entryNew (fmt : Fmt) (key val : Bytes) (ex : Int) (flags cas : Nat)
    (h : Legal fmt key val ex flags cas) :
    extract fmt (entryNew fmt key val ex flags cas) = some
      { key := key, value := val, expires := if ex > 0 then ex else 0, flags := flags,
        cas := if fmt.usecas then cas else 0, memsize := allocSize fmt key val ex flags } := by
  obtain ⟨hex, hfl, hcas, hs⟩ := h
  have hexb : ex.toNat < 256 ^ 8 := by have := hex.2; simp only [show (256:Nat)^8 = 2^64 from rfl]; omega
  have hflb : flags < 256 ^ 4 := by simpa using hfl
  have hcasb : cas < 256 ^ 8 := by simpa using hcas
  have ex8 : ∀ rest, 0 < ex → readLE 8 (writeLE 8 ex.toNat ++ rest) = some ex.toNat :=
    fun rest _ => readLE_write 8 _ rest hexb
  have fl4 : ∀ rest, readLE 4 (writeLE 4 flags ++ rest) = some flags := fun rest => readLE_write 4 _ rest hflb
  have cs8 : ∀ rest, readLE 8 (writeLE 8 cas ++ rest) = some cas := fun rest => readLE_write 8 _ rest hcasb
  unfold extract
  rw [memsize_new _ _ _ _ _ _ hs, memszsz_eq, hasExpires_eq, hasFlags_eq, hasSixpack_eq]
  simp only [Option.bind_some, decide_eq_true_eq]
  have e1 : optField (decide (ex > 0)) 8 (entryNew fmt key val ex flags cas).data
      (2 ^ sizeClass (baseSize fmt key val ex flags)) = some (if ex > 0 then ex.toNat else 0) := by
    unfold optField
    rw [dropE]
    by_cases hp : ex > 0
    · simp only [hp, decide_true, if_true, parts]; exact ex8 _ hp
    · simp [hp]
  have e2 : optField (decide (flags > 0)) 4 (entryNew fmt key val ex flags cas).data
      (2 ^ sizeClass (baseSize fmt key val ex flags) + (if ex > 0 then 8 else 0)) = some flags := by
    unfold optField
    rw [dropF]
    by_cases hp : flags > 0
    · simp only [hp, decide_true, if_true, parts]; exact fl4 _
    · simp [hp]; omega
  have e3 : optField fmt.usecas 8 (entryNew fmt key val ex flags cas).data
        (2 ^ sizeClass (baseSize fmt key val ex flags) + (if ex > 0 then 8 else 0)
          + (if flags > 0 then 4 else 0)) = some (if fmt.usecas then cas else 0) := by
    unfold optField
    rw [dropC]
    by_cases hp : fmt.usecas = true
    · simp only [hp, if_true, parts]; exact cs8 _
    · simp [hp]
  rw [e1, Option.bind_some, e2, Option.bind_some, e3, Option.bind_some, dropV]
  simp only []
  rw [readV _ _ _ _ _ _ hs, Option.bind_some]
  simp only []
  rw [sliceK, Option.bind_some, unpackStored, Option.bind_some, sliceW, Option.bind_some]
  have : Int.ofNat (if ex > 0 then ex.toNat else 0) = if ex > 0 then ex else 0 := by
    split
    · simp; omega
    · simp
  rw [this]

/-- A non-trivial legal entry: expiry, flags, CAS and a packed key. -/
example : Legal ⟨true, false⟩ [97, 98, 99] [1, 2, 3] 77 5 9 ∧
    (entryNew ⟨true, false⟩ [97, 98, 99] [1, 2, 3] 77 5 9).hasSixpack = true ∧
    (extract ⟨true, false⟩ (entryNew ⟨true, false⟩ [97, 98, 99] [1, 2, 3] 77 5 9)).map (·.key)
      = some [97, 98, 99] := by
  have hl : Legal ⟨true, false⟩ [97, 98, 99] [1, 2, 3] 77 5 9 := by
    constructor
    · unfold IsI64; omega
    · decide
    · decide
    · exact Nat.lt_of_le_of_lt (allocSize_le _ _ _ _ _ (by decide)) (by decide)
  refine ⟨hl, ?_, ?_⟩
  · rw [hasSixpack_eq]; decide
  · rw [extract_entryNew _ _ _ _ _ _ hl]; rfl

/-- The bytes written stay inside the allocation: the data area starts at offset 13 of the
allocation (after `time`, `rc` and the bit-fields, before `sizeof(struct entry)` = 16). -/
theorem entryNew_in_bounds (fmt : Fmt) (key val : Bytes) (ex : Int) (flags cas : Nat) :
    13 + (entryNew fmt key val ex flags cas).data.length ≤ allocSize fmt key val ex flags := by
  have := data_length fmt key val ex flags cas; omega

/-- The single-field readers agree with what was stored. -/
theorem accessors_entryNew (fmt : Fmt) (key' val : Bytes) (ex : Int) (flags cas' : Nat)
    (h : Legal fmt key' val ex flags cas') :
    let e := entryNew fmt key' val ex flags cas'
    memsize e = some (allocSize fmt key' val ex flags) ∧
    expires e = some (if ex > 0 then ex else 0) ∧
    cas fmt e = some (if fmt.usecas then cas' else 0) ∧
    key fmt e = some key' ∧
    value fmt e = some val := by
  obtain ⟨hex, hfl, hcas, hs⟩ := h
  have hexb : ex.toNat < 256 ^ 8 := by have := hex.2; simp only [show (256:Nat)^8 = 2^64 from rfl]; omega
  have hcasb : cas' < 256 ^ 8 := by simpa using hcas
  have hco : casOffset (entryNew fmt key' val ex flags cas') =
      2 ^ sizeClass (baseSize fmt key' val ex flags) + (if ex > 0 then 8 else 0)
          + (if flags > 0 then 4 else 0) := by
    unfold casOffset
    rw [memszsz_eq, hasExpires_eq, hasFlags_eq]
    simp
  have hpos : rawkeyPos fmt (entryNew fmt key' val ex flags cas') = some
      (2 ^ sizeClass (baseSize fmt key' val ex flags) + (if ex > 0 then 8 else 0)
          + (if flags > 0 then 4 else 0) + (if fmt.usecas then 8 else 0)
          + (parts fmt key' val ex flags cas').V.length, (storedKey fmt key').1.length) := by
    unfold rawkeyPos
    simp only []
    rw [hco, dropV]
    simp only []
    rw [readV _ _ _ _ _ _ hs]
    simp
  refine ⟨memsize_new _ _ _ _ _ _ hs, ?_, ?_, ?_, ?_⟩
  · unfold expires
    rw [memszsz_eq, hasExpires_eq, dropE]
    by_cases hp : ex > 0
    · simp only [hp, decide_true, if_true, parts]
      rw [readLE_write 8 _ _ hexb]
      simp; omega
    · simp [hp]
  · unfold cas
    rw [hco, dropC]
    by_cases hp : fmt.usecas = true
    · simp only [hp, if_true, parts]
      exact readLE_write 8 _ _ hcasb
    · simp [hp]
  · unfold key rawkey
    rw [hpos]
    simp only [Option.bind_some]
    rw [sliceK _ _ _ _ _ _]
    simp only [Option.bind_some]
    rw [hasSixpack_eq]
    exact unpackStored _ _
  · unfold value
    rw [memsize_new _ _ _ _ _ _ hs, hpos]
    simp only [Option.bind_some]
    exact sliceW _ _ _ _ _ _

example : Legal ⟨false, true⟩ [255] [] (-5) 0 0 ∧
    (expires (entryNew ⟨false, true⟩ [255] [] (-5) 0 0)) = some 0 := by
  have hl : Legal ⟨false, true⟩ [255] [] (-5) 0 0 := by
    constructor
    · unfold IsI64; omega
    · decide
    · decide
    · exact Nat.lt_of_le_of_lt (allocSize_le _ _ _ _ _ (by decide)) (by decide)
  exact ⟨hl, (accessors_entryNew _ _ _ _ _ _ hl).2.1⟩

theorem rawkey_new (fmt : Fmt) (key' val : Bytes) (ex : Int) (flags cas' : Nat)
    (hs : allocSize fmt key' val ex flags < 2 ^ 64) :
    rawkey fmt (entryNew fmt key' val ex flags cas') = some (storedKey fmt key').1 := by
  have hco : casOffset (entryNew fmt key' val ex flags cas') =
      2 ^ sizeClass (baseSize fmt key' val ex flags) + (if ex > 0 then 8 else 0)
          + (if flags > 0 then 4 else 0) := by
    unfold casOffset
    rw [memszsz_eq, hasExpires_eq, hasFlags_eq]
    simp
  unfold rawkey rawkeyPos
  simp only []
  rw [hco, dropV]
  simp only []
  rw [readV _ _ _ _ _ _ hs]
  simp only [Option.map_some, Option.bind_some]
  exact sliceK _ _ _ _ _ _

/-- C02: two stored entries compare equal exactly when their original keys are equal, whether
packed or not, whatever else they contain. -/
theorem compare_eq_zero_iff (fmt : Fmt) (k1 v1 k2 v2 : Bytes) (ex1 ex2 : Int) (f1 f2 c1 c2 : Nat)
    (h1 : Legal fmt k1 v1 ex1 f1 c1) (h2 : Legal fmt k2 v2 ex2 f2 c2) :
    ∃ c, compare fmt (entryNew fmt k1 v1 ex1 f1 c1) (entryNew fmt k2 v2 ex2 f2 c2) = some c ∧
      (c = 0 ↔ k1 = k2) := by
  unfold compare
  rw [hasSixpack_eq, hasSixpack_eq, rawkey_new _ _ _ _ _ _ h1.size64, rawkey_new _ _ _ _ _ _ h2.size64,
    (accessors_entryNew _ _ _ _ _ _ h1).2.2.2.1, (accessors_entryNew _ _ _ _ _ _ h2).2.2.2.1]
  simp only [Option.bind_some]
  by_cases hb : (storedKey fmt k1).2 = (storedKey fmt k2).2
  · rw [if_pos hb]
    refine ⟨_, rfl, ?_⟩
    rw [cmpBytes_eq_zero]
    rcases storedKey_cases fmt k1 with e1 | ⟨e1, n1, _⟩ <;>
      rcases storedKey_cases fmt k2 with e2 | ⟨e2, n2, _⟩ <;> rw [e1, e2] at hb ⊢
    · exact absurd hb (by simp)
    · exact absurd hb (by simp)
    · exact ⟨fun h => sixpack_injective k1 k2 n1 h, fun h => by rw [h]⟩
  · rw [if_neg hb]
    exact ⟨_, rfl, cmpBytes_eq_zero _ _⟩

/-- "abc" is packed, "abcQ" is not: different keys, and both legal. -/
example : Legal ⟨true, false⟩ [97, 98, 99] [] 0 0 1 ∧ Legal ⟨true, false⟩ [97, 98, 99, 81] [] 0 0 2 ∧
    (storedKey ⟨true, false⟩ [97, 98, 99]).2 = true ∧ (storedKey ⟨true, false⟩ [97, 98, 99, 81]).2 = false := by
  refine ⟨?_, ?_, by decide, by decide⟩
  all_goals
    constructor
    · unfold IsI64; omega
    · decide
    · decide
    · exact Nat.lt_of_le_of_lt (allocSize_le _ _ _ _ _ (by decide)) (by decide)

/-- C02: looking a key up compares true exactly for the entry with that key. -/
theorem keyEq_iff (fmt : Fmt) (k v q : Bytes) (ex : Int) (f c : Nat) (h : Legal fmt k v ex f c) :
    keyEq fmt (entryNew fmt k v ex f c) q = some (decide (q = k)) := by
  unfold keyEq
  rw [(accessors_entryNew _ _ _ _ _ _ h).2.2.2.1]
  simp only [Option.map_some]
  congr 1
  by_cases hq : q = k
  · subst hq; simp
  · simp [hq]

end Verif.Entry
