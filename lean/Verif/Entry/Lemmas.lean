import Verif.Entry.Model
import Verif.Sixpack.Props
import Verif.Num.Props

/-! Helper lemmas for the packed entry. -/

namespace Verif.Entry

open Verif.Num Verif.Sixpack

theorem storedKey_cases (fmt : Fmt) (k : Bytes) :
    (storedKey fmt k = (k, false)) ∨
    (storedKey fmt k = (sixpack k, true) ∧ sixpack k ≠ [] ∧ k.length ≤ 128) := by
  unfold storedKey
  by_cases h1 : (!fmt.nosixpack && decide (k.length ≤ 128)) = true
  · rw [if_pos h1]
    by_cases h2 : (sixpack k).length > 0
    · right
      simp only [h2, if_true]
      simp only [Bool.and_eq_true, decide_eq_true_eq] at h1
      exact ⟨trivial, by intro hc; simp [hc] at h2, h1.2⟩
    · left; simp only [h2, if_false]
  · left; rw [if_neg h1]

theorem storedKey_length_le (fmt : Fmt) (k : Bytes) : (storedKey fmt k).1.length ≤ k.length := by
  rcases storedKey_cases fmt k with h | ⟨h, _, hl⟩
  · rw [h]
  · rw [h]; exact (sixpack_fits k hl).2

/-- Pieces of the data area. -/
structure Parts where
  S : Bytes
  E : Bytes
  F : Bytes
  C : Bytes
  V : Bytes
  K : Bytes
  W : Bytes

def parts (fmt : Fmt) (key val : Bytes) (ex : Int) (flags cas : Nat) : Parts :=
  { S := writeLE (2 ^ sizeClass (baseSize fmt key val ex flags)) (allocSize fmt key val ex flags)
    E := if ex > 0 then writeLE 8 ex.toNat else []
    F := if flags > 0 then writeLE 4 flags else []
    C := if fmt.usecas then writeLE 8 cas else []
    V := varintWrite (storedKey fmt key).1.length
    K := (storedKey fmt key).1
    W := val }

theorem data_eq (fmt : Fmt) (key val : Bytes) (ex : Int) (flags cas : Nat) :
    (entryNew fmt key val ex flags cas).data =
      let p := parts fmt key val ex flags cas
      p.S ++ (p.E ++ (p.F ++ (p.C ++ (p.V ++ (p.K ++ p.W))))) := by
  simp [entryNew, parts, List.append_assoc]

theorem E_length (fmt : Fmt) (key val : Bytes) (ex : Int) (flags cas : Nat) :
    (parts fmt key val ex flags cas).E.length = if ex > 0 then 8 else 0 := by
  simp only [parts]; split <;> simp [writeLE_length]

theorem F_length (fmt : Fmt) (key val : Bytes) (ex : Int) (flags cas : Nat) :
    (parts fmt key val ex flags cas).F.length = if flags > 0 then 4 else 0 := by
  simp only [parts]; split <;> simp [writeLE_length]

theorem C_length (fmt : Fmt) (key val : Bytes) (ex : Int) (flags cas : Nat) :
    (parts fmt key val ex flags cas).C.length = if fmt.usecas then 8 else 0 := by
  simp only [parts]; split <;> simp [writeLE_length]

theorem S_length (fmt : Fmt) (key val : Bytes) (ex : Int) (flags cas : Nat) :
    (parts fmt key val ex flags cas).S.length = 2 ^ sizeClass (baseSize fmt key val ex flags) := by
  simp only [parts]; simp [writeLE_length]

theorem sizeClass_lt (base : Nat) : sizeClass base < 4 := by
  unfold sizeClass; split <;> [skip; split <;> [skip; split]] <;> omega

theorem allocSize_eq (fmt : Fmt) (key val : Bytes) (ex : Int) (flags : Nat) :
    allocSize fmt key val ex flags
      = baseSize fmt key val ex flags + 2 ^ sizeClass (baseSize fmt key val ex flags) := by
  unfold allocSize
  have := sizeClass_lt (baseSize fmt key val ex flags)
  generalize baseSize fmt key val ex flags = b at *
  simp only []
  revert this
  generalize sizeClass b = c
  intro hc
  have : c = 0 ∨ c = 1 ∨ c = 2 ∨ c = 3 := by omega
  rcases this with rfl | rfl | rfl | rfl <;> rfl

theorem allocSize_fits (fmt : Fmt) (key val : Bytes) (ex : Int) (flags : Nat)
    (h : allocSize fmt key val ex flags < 2 ^ 64) :
    allocSize fmt key val ex flags < 256 ^ (2 ^ sizeClass (baseSize fmt key val ex flags)) := by
  rw [allocSize_eq] at *
  revert h
  generalize baseSize fmt key val ex flags = b
  unfold sizeClass
  intro h
  split
  · simp; omega
  · split
    · simp; omega
    · split
      · simp; omega
      · rename_i h1 h2 h3
        rw [if_neg h1, if_neg h2, if_neg h3] at h
        simpa using h

theorem baseSize_eq (fmt : Fmt) (key val : Bytes) (ex : Int) (flags cas : Nat) :
    baseSize fmt key val ex flags =
      let p := parts fmt key val ex flags cas
      16 + p.E.length + p.F.length + p.C.length + p.V.length + p.K.length + p.W.length := by
  simp only [E_length, F_length, C_length]
  simp only [baseSize, parts, sizeofEntry, prefixLen]
  omega

theorem data_length (fmt : Fmt) (key val : Bytes) (ex : Int) (flags cas : Nat) :
    (entryNew fmt key val ex flags cas).data.length + 16 = allocSize fmt key val ex flags := by
  rw [data_eq, allocSize_eq, ← S_length fmt key val ex flags cas, baseSize_eq fmt key val ex flags cas]
  simp only [List.length_append]
  omega

theorem drop_len_append {a b : Bytes} {n : Nat} (h : a.length = n) : (a ++ b).drop n = b := by
  subst h; simp

theorem drop_add' (l : Bytes) (a b : Nat) : l.drop (a + b) = (l.drop a).drop b := by
  rw [List.drop_drop]

section
variable (fmt : Fmt) (key val : Bytes) (ex : Int) (flags cas : Nat)

theorem memszsz_eq : (entryNew fmt key val ex flags cas).memszsz
    = sizeClass (baseSize fmt key val ex flags) := by simp [entryNew]

theorem hasExpires_eq : (entryNew fmt key val ex flags cas).hasExpires = decide (ex > 0) := by simp [entryNew]
theorem hasFlags_eq : (entryNew fmt key val ex flags cas).hasFlags = decide (flags > 0) := by simp [entryNew]
theorem hasSixpack_eq : (entryNew fmt key val ex flags cas).hasSixpack = (storedKey fmt key).2 := by
  simp [entryNew]

theorem dropE :
    (entryNew fmt key val ex flags cas).data.drop (2 ^ sizeClass (baseSize fmt key val ex flags)) =
      let p := parts fmt key val ex flags cas
      p.E ++ (p.F ++ (p.C ++ (p.V ++ (p.K ++ p.W)))) := by
  rw [data_eq]; exact drop_len_append (S_length ..)

theorem dropF :
    (entryNew fmt key val ex flags cas).data.drop
        (2 ^ sizeClass (baseSize fmt key val ex flags) + (if ex > 0 then 8 else 0)) =
      let p := parts fmt key val ex flags cas
      p.F ++ (p.C ++ (p.V ++ (p.K ++ p.W))) := by
  rw [drop_add', dropE]; exact drop_len_append (E_length ..)

theorem dropC :
    (entryNew fmt key val ex flags cas).data.drop
        (2 ^ sizeClass (baseSize fmt key val ex flags) + (if ex > 0 then 8 else 0)
          + (if flags > 0 then 4 else 0)) =
      let p := parts fmt key val ex flags cas
      p.C ++ (p.V ++ (p.K ++ p.W)) := by
  rw [drop_add', dropF]; exact drop_len_append (F_length ..)

theorem dropV :
    (entryNew fmt key val ex flags cas).data.drop
        (2 ^ sizeClass (baseSize fmt key val ex flags) + (if ex > 0 then 8 else 0)
          + (if flags > 0 then 4 else 0) + (if fmt.usecas then 8 else 0)) =
      let p := parts fmt key val ex flags cas
      p.V ++ (p.K ++ p.W) := by
  rw [drop_add', dropC]; exact drop_len_append (C_length ..)

theorem dropK :
    (entryNew fmt key val ex flags cas).data.drop
        (2 ^ sizeClass (baseSize fmt key val ex flags) + (if ex > 0 then 8 else 0)
          + (if flags > 0 then 4 else 0) + (if fmt.usecas then 8 else 0)
          + (parts fmt key val ex flags cas).V.length) =
      let p := parts fmt key val ex flags cas
      p.K ++ p.W := by
  rw [drop_add', dropV]; exact drop_len_append rfl

theorem dropW :
    (entryNew fmt key val ex flags cas).data.drop
        (2 ^ sizeClass (baseSize fmt key val ex flags) + (if ex > 0 then 8 else 0)
          + (if flags > 0 then 4 else 0) + (if fmt.usecas then 8 else 0)
          + (parts fmt key val ex flags cas).V.length + (parts fmt key val ex flags cas).K.length) =
      (parts fmt key val ex flags cas).W := by
  rw [drop_add', dropK]; exact drop_len_append rfl

theorem total_len :
    (entryNew fmt key val ex flags cas).data.length =
      (2 ^ sizeClass (baseSize fmt key val ex flags) + (if ex > 0 then 8 else 0)
          + (if flags > 0 then 4 else 0) + (if fmt.usecas then 8 else 0)
          + (parts fmt key val ex flags cas).V.length + (parts fmt key val ex flags cas).K.length)
      + val.length := by
  rw [data_eq]
  simp only [List.length_append, S_length, E_length, F_length, C_length]
  simp only [parts]
  omega

variable (hsize : allocSize fmt key val ex flags < 2 ^ 64)
include hsize

theorem memsize_new : memsize (entryNew fmt key val ex flags cas) = some (allocSize fmt key val ex flags) := by
  unfold memsize
  rw [memszsz_eq, data_eq]
  exact readLE_write _ _ _ (allocSize_fits fmt key val ex flags hsize)

theorem klen_lt : (storedKey fmt key).1.length < 2 ^ 64 := by
  have := data_length fmt key val ex flags 0
  rw [total_len] at this
  simp only [parts] at this
  generalize 2 ^ sizeClass (baseSize fmt key val ex flags) = t at this
  omega

theorem readV (rest : Bytes) : varintReadRaw ((parts fmt key val ex flags cas).V ++ rest)
    = some ((parts fmt key val ex flags cas).V.length, (storedKey fmt key).1.length) :=
  varint_roundtrip_raw _ (klen_lt fmt key val ex flags hsize) rest

omit hsize in
theorem sliceK : slice (entryNew fmt key val ex flags cas).data
      (2 ^ sizeClass (baseSize fmt key val ex flags) + (if ex > 0 then 8 else 0)
          + (if flags > 0 then 4 else 0) + (if fmt.usecas then 8 else 0)
          + (parts fmt key val ex flags cas).V.length) (storedKey fmt key).1.length
    = some (storedKey fmt key).1 := by
  unfold slice
  rw [if_pos, dropK]
  · simp [parts]
  · rw [total_len]; simp only [parts]; omega

omit hsize in
theorem unpackStored : unpackKey (storedKey fmt key).2 (storedKey fmt key).1 = some key := by
  unfold unpackKey
  rcases storedKey_cases fmt key with h | ⟨h, hne, hl⟩
  · rw [h]; simp
  · rw [h]
    simp only [if_true]
    rw [if_pos (unsixpack_fits key hl hne), unsixpack_sixpack key hne]

omit hsize in
theorem sliceW : 
    (if 2 ^ sizeClass (baseSize fmt key val ex flags) + (if ex > 0 then 8 else 0)
          + (if flags > 0 then 4 else 0) + (if fmt.usecas then 8 else 0)
          + (parts fmt key val ex flags cas).V.length + (storedKey fmt key).1.length + sizeofEntry
          ≤ allocSize fmt key val ex flags then
      slice (entryNew fmt key val ex flags cas).data
       (2 ^ sizeClass (baseSize fmt key val ex flags) + (if ex > 0 then 8 else 0)
          + (if flags > 0 then 4 else 0) + (if fmt.usecas then 8 else 0)
          + (parts fmt key val ex flags cas).V.length + (storedKey fmt key).1.length)
       (allocSize fmt key val ex flags -
        (2 ^ sizeClass (baseSize fmt key val ex flags) + (if ex > 0 then 8 else 0)
          + (if flags > 0 then 4 else 0) + (if fmt.usecas then 8 else 0)
          + (parts fmt key val ex flags cas).V.length + (storedKey fmt key).1.length) - sizeofEntry)
      else none) = some val := by
  have h1 := data_length fmt key val ex flags cas
  have h2 := total_len fmt key val ex flags cas
  have h3 := dropW fmt key val ex flags cas
  have hK : (parts fmt key val ex flags cas).K.length = (storedKey fmt key).1.length := rfl
  rw [hK] at h2 h3
  generalize hoff : (2 ^ sizeClass (baseSize fmt key val ex flags) + (if ex > 0 then 8 else 0)
          + (if flags > 0 then 4 else 0) + (if fmt.usecas = true then 8 else 0)
          + (parts fmt key val ex flags cas).V.length + (storedKey fmt key).1.length) = off at *
  have hv : allocSize fmt key val ex flags - off - sizeofEntry = val.length := by
    simp only [sizeofEntry]; omega
  rw [if_pos (by simp only [sizeofEntry]; omega), hv]
  unfold slice
  rw [if_pos (by omega), h3]
  simp [parts]

end

/-- A crude bound on the allocation size. -/
theorem allocSize_le (fmt : Fmt) (key val : Bytes) (ex : Int) (flags : Nat) (h : key.length < 2 ^ 64) :
    allocSize fmt key val ex flags ≤ key.length + val.length + 54 := by
  rw [allocSize_eq]
  have h1 := sizeClass_lt (baseSize fmt key val ex flags)
  have h2 := storedKey_length_le fmt key
  have h3 := (varint_length (storedKey fmt key).1.length (by omega)).2
  have h4 : 2 ^ sizeClass (baseSize fmt key val ex flags) ≤ 2 ^ 3 :=
    Nat.pow_le_pow_right (by decide) (by omega)
  have h5 : prefixLen fmt ex flags ≤ 20 := by
    unfold prefixLen
    split <;> split <;> split <;> omega
  have h6 : baseSize fmt key val ex flags ≤ 46 + key.length + val.length := by
    simp only [baseSize, sizeofEntry]
    omega
  omega

theorem cmpBytes_eq_zero (a b : Bytes) : cmpBytes a b = 0 ↔ a = b := by
  induction a generalizing b with
  | nil => cases b <;> simp [cmpBytes]
  | cons x a ih =>
    cases b with
    | nil => simp [cmpBytes]
    | cons y b =>
      simp only [cmpBytes]
      split
      · rename_i h; simp; intro hxy; subst hxy; simp at h
      · split
        · rename_i h; simp; intro hxy; subst hxy; simp at h
        · rename_i h1 h2
          have : x = y := by
            apply UInt8.toNat_inj.1
            rw [UInt8.lt_iff_toNat_lt] at h1 h2
            omega
          subst this
          rw [ih]; simp

end Verif.Entry
