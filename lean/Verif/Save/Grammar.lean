import Mathlib.Tactic.Common
import Verif.Save.Model
import Verif.Num.Lemmas

/-!
C119: what a block of the data file says, for any bytes.
-/

namespace Verif.Save
open Verif.Num Verif.Crc
open Verif.Cache (Spec.StoreArgs)

/-! ### Specification -/

/-- The number that these bytes mean: 7 bits each, the lowest first. -/
def value : Bytes → Nat
  | [] => 0
  | b :: bs => b.toNat % 128 + 128 * value bs

/-- The bytes of a number: all but the last have the highest bit set. -/
def Shape (bs : Bytes) : Prop := ∃ (init : Bytes) (last : UInt8), bs = init ++ [last] ∧ (∀ b ∈ init, 128 ≤ b.toNat) ∧ last.toNat < 128

/-- At most 10 bytes mean the number `x` of 64 bits. -/
def Number (bs : Bytes) (x : Nat) : Prop := Shape bs ∧ bs.length ≤ 10 ∧ x = value bs % 2 ^ 64

/-- The bytes of an entry. -/
def EntryBytes (bs : Bytes) (e : FileEnt) : Prop :=
  ∃ n1 n2 n3 n4 n5 : Bytes, bs = [0] ++ n1 ++ e.key ++ n2 ++ e.val ++ n3 ++ n4 ++ n5 ∧
    Number n1 e.key.length ∧ Number n2 e.val.length ∧ Number n3 e.ttl ∧ e.ttl < 2 ^ 63 ∧ Number n4 e.flags ∧ e.flags < 2 ^ 32 ∧ Number n5 e.cas

/-- The bytes are those of the entries one after the other, and nothing more. -/
inductive Entries : Bytes → List FileEnt → Prop
  | nil : Entries [] []
  | cons {bs p : Bytes} {e : FileEnt} {es : List FileEnt} : EntryBytes bs e → Entries p es → Entries (bs ++ p) (e :: es)

/-- The number that has these bytes, the lowest first. -/
def little : Bytes → Nat
  | [] => 0
  | b :: bs => b.toNat + 256 * little bs

/-- The bytes are blocks one after the other, and nothing more: `POGO`, the checksum, the length of the data, the length of the compressed data,
and these. -/
inductive Blocks : Bytes → List (Bytes × Nat) → Prop
  | nil : Blocks [] []
  | cons {crc dl cl cdata p : Bytes} {l : List (Bytes × Nat)} : crc.length = 4 → dl.length = 4 → cl.length = 4 → little crc = (crc32 cdata).toNat →
      little cl = cdata.length → Blocks p l → Blocks ([80, 79, 71, 79] ++ crc ++ dl ++ cl ++ cdata ++ p) ((cdata, little dl) :: l)

/-! ### Numbers -/

theorem shape_cons {b : UInt8} {bs : Bytes} : Shape (b :: bs) ↔ (b.toNat < 128 ∧ bs = []) ∨ (128 ≤ b.toNat ∧ Shape bs) := by
  constructor
  · rintro ⟨init, last, h, h1, h2⟩
    cases init with
    | nil =>
      simp only [List.nil_append, List.cons.injEq] at h
      exact .inl ⟨h.1 ▸ h2, h.2⟩
    | cons a init =>
      simp only [List.cons_append, List.cons.injEq] at h
      exact .inr ⟨h.1 ▸ h1 a (by simp), init, last, h.2, fun b hb => h1 b (by simp [hb]), h2⟩
  · rintro (⟨h, rfl⟩ | ⟨h, init, last, rfl, h1, h2⟩)
    · exact ⟨[], b, rfl, by simp, h⟩
    · exact ⟨b :: init, last, rfl, by simpa using ⟨h, h1⟩, h2⟩

theorem shape_nil : ¬ Shape [] := by
  rintro ⟨init, last, h, _⟩
  cases init <;> cases h

theorem and127 (b : UInt8) : (b &&& 127).toNat = b.toNat % 128 := by
  rw [UInt8.toNat_and]
  exact Nat.and_two_pow_sub_one_eq_mod b.toNat 7

theorem lt128 (b : UInt8) : b < 128 ↔ b.toNat < 128 := by
  rw [UInt8.lt_iff_toNat_lt]
  rfl

theorem or_add {acc i y : Nat} (h : acc < 2 ^ (7 * i)) (hi : i < 10) :
    acc ||| ((y % 128) <<< (7 * i)) % 2 ^ 64 = (acc + y % 128 * 2 ^ (7 * i)) % 2 ^ 64 := by
  have hp : 2 ^ (7 * i) ∣ 2 ^ 64 := Nat.pow_dvd_pow 2 (by omega)
  obtain ⟨m, hm⟩ := hp
  have hm' : 0 < m := by
    rcases Nat.eq_zero_or_pos m with rfl | h
    · simp at hm
    · exact h
  have e : ((y % 128) <<< (7 * i)) % 2 ^ 64 = 2 ^ (7 * i) * (y % 128 % m) := by
    rw [Nat.shiftLeft_eq, Nat.mul_comm, hm, Nat.mul_mod_mul_left]
  rw [e, Nat.or_comm, ← Nat.two_pow_add_eq_or_of_lt h]
  have hd : acc + y % 128 * 2 ^ (7 * i) = acc + 2 ^ (7 * i) * (y % 128 % m) + 2 ^ 64 * (y % 128 / m) := by
    rw [hm, Nat.mul_assoc, Nat.add_assoc, ← Nat.mul_add, Nat.mod_add_div, Nat.mul_comm]
  have h1 : y % 128 % m + 1 ≤ m := Nat.mod_lt _ hm'
  have h2 := Nat.mul_le_mul_left (2 ^ (7 * i)) h1
  rw [Nat.mul_add, Nat.mul_one, ← hm] at h2
  have h3 : acc + 2 ^ (7 * i) * (y % 128 % m) < 2 ^ 64 := by omega
  rw [hd, Nat.add_mul_mod_self_left, Nat.mod_eq_of_lt h3, Nat.add_comm]

theorem loop_shape {bs : Bytes} (hs : Shape bs) (q : Bytes) : ∀ {i acc : Nat}, i + bs.length ≤ 10 → acc < 2 ^ (7 * i) →
    varintReadLoop (bs ++ q) i acc = (((i + bs.length : Nat) : Int), (acc + value bs * 2 ^ (7 * i)) % 2 ^ 64) := by
  induction bs with
  | nil => exact (shape_nil hs).elim
  | cons b bs ih =>
    intro i acc hi hacc
    simp only [List.length_cons] at hi
    have hi10 : i < 10 := by omega
    simp only [List.cons_append, varintReadLoop, if_pos hi10, and127, or_add hacc hi10, List.length_cons]
    rcases shape_cons.1 hs with ⟨hb, rfl⟩ | ⟨hb, hs'⟩
    · rw [if_pos ((lt128 b).2 hb)]
      simp [value]
    · rw [if_neg (fun h => by have := (lt128 b).1 h; omega)]
      have hpos : 0 < bs.length := by
        rcases bs with _ | _
        · exact (shape_nil hs').elim
        · simp
      have h63 : (2 : Nat) ^ (7 * (i + 1)) ≤ 2 ^ 64 := Nat.pow_le_pow_right (by decide) (by omega)
      have hb' := Nat.mod_lt b.toNat (show 0 < 128 by decide)
      have hm := Nat.mul_le_mul_right (2 ^ (7 * i)) (show b.toNat % 128 + 1 ≤ 128 by omega)
      have hp : (2 : Nat) ^ (7 * (i + 1)) = 128 * 2 ^ (7 * i) := by
        rw [show 7 * (i + 1) = 7 * i + 7 by omega, Nat.pow_add]
        omega
      have hlt : acc + b.toNat % 128 * 2 ^ (7 * i) < 2 ^ (7 * (i + 1)) := by
        rw [Nat.add_mul, Nat.one_mul] at hm
        omega
      rw [Nat.mod_eq_of_lt (by omega), ih hs' (by omega) hlt]
      rw [value, hp, show i + 1 + bs.length = i + (bs.length + 1) by omega]
      congr 2
      rw [Nat.add_mul, Nat.add_assoc, Nat.mul_comm 128 (value bs), Nat.mul_assoc]

theorem loop_found {p : Bytes} : ∀ {i acc : Nat} {r : Int} {x : Nat}, varintReadLoop p i acc = (r, x) → 0 < r →
    ∃ bs q, p = bs ++ q ∧ Shape bs ∧ i + bs.length ≤ 10 ∧ r = ((i + bs.length : Nat) : Int) := by
  induction p with
  | nil =>
    intro i acc r x h hr
    rw [varintReadLoop] at h
    have := (Prod.mk.inj h).1
    split at this <;> omega
  | cons b p ih =>
    intro i acc r x h hr
    rw [varintReadLoop] at h
    by_cases hi : i < 10
    · rw [if_pos hi] at h
      by_cases hb : b < 128
      · simp only [if_pos hb] at h
        refine ⟨[b], p, rfl, shape_cons.2 (.inl ⟨(lt128 b).1 hb, rfl⟩), by simp; omega, ?_⟩
        have := (Prod.mk.inj h).1
        simp only [List.length_cons, List.length_nil]
        omega
      · simp only [if_neg hb] at h
        obtain ⟨bs, q, rfl, h1, h2, h3⟩ := ih h hr
        refine ⟨b :: bs, q, rfl, shape_cons.2 (.inr ⟨?_, h1⟩), by simp only [List.length_cons]; omega, by simp only [List.length_cons]; omega⟩
        have : ¬ b.toNat < 128 := fun h => hb ((lt128 b).2 h)
        omega
    · rw [if_neg hi] at h
      have := (Prod.mk.inj h).1
      split at this <;> omega

theorem varintRead_loop (p : Bytes) : varintRead p = varintReadLoop p 0 0 := by
  unfold varintRead
  cases p with
  | nil => rfl
  | cons b p =>
    dsimp only
    by_cases hb : b < 128
    · have h := loop_shape (bs := [b]) (shape_cons.2 (.inl ⟨(lt128 b).1 hb, rfl⟩)) p (i := 0) (acc := 0) (by simp) (by simp)
      rw [if_pos hb]
      rw [show b :: p = [b] ++ p from rfl, h]
      have := (lt128 b).1 hb
      simp only [value, List.length_cons, List.length_nil]
      congr 1
      omega
    · rw [if_neg hb]

theorem readU_iff {p q : Bytes} {x : Nat} : readU p = some (x, q) ↔ ∃ bs, Number bs x ∧ p = bs ++ q := by
  unfold readU
  rw [varintRead_loop]
  constructor
  · intro h
    rcases hv : varintReadLoop p 0 0 with ⟨r, y⟩
    rw [hv] at h
    dsimp only at h
    by_cases hr : r ≤ 0
    · rw [if_pos hr] at h; cases h
    · rw [if_neg hr] at h
      obtain ⟨bs, q', rfl, h1, h2, h3⟩ := loop_found hv (by omega)
      rw [loop_shape h1 q' h2 (by simp)] at hv
      simp only [Nat.zero_add, Nat.mul_zero, Nat.pow_zero, Nat.mul_one, Prod.mk.injEq] at hv
      simp only [Option.some.injEq, Prod.mk.injEq] at h
      obtain ⟨rfl, rfl⟩ := h
      refine ⟨bs, ⟨h1, by omega, hv.2.symm⟩, ?_⟩
      rw [← hv.1]
      simp
  · rintro ⟨bs, ⟨h1, h2, rfl⟩, rfl⟩
    rw [loop_shape h1 q (by omega) (by simp)]
    have : ¬ (((0 + bs.length : Nat) : Int) ≤ 0) := by
      rcases bs with _ | _
      · exact (shape_nil h1).elim
      · simp only [List.length_cons]; omega
    dsimp only
    rw [if_neg this]
    simp

theorem readBytes_iff {p q b : Bytes} : readBytes p = some (b, q) ↔ ∃ n, Number n b.length ∧ p = n ++ b ++ q := by
  unfold readBytes
  constructor
  · intro h
    obtain ⟨⟨len, p'⟩, h1, h2⟩ := Option.bind_eq_some_iff.1 h
    obtain ⟨n, hn, rfl⟩ := readU_iff.1 h1
    dsimp only at h2
    by_cases hl : p'.length < len
    · rw [if_pos hl] at h2; cases h2
    · rw [if_neg hl] at h2
      simp only [Option.some.injEq, Prod.mk.injEq] at h2
      obtain ⟨rfl, rfl⟩ := h2
      refine ⟨n, ?_, by simp⟩
      rw [List.length_take, Nat.min_eq_left (by omega)]
      exact hn
  · rintro ⟨n, hn, rfl⟩
    rw [readU_iff.2 ⟨n, hn, by rw [List.append_assoc]⟩]
    simp

theorem readEntry_iff {p q : Bytes} {e : FileEnt} : readEntry p = some (e, q) ↔ ∃ bs, EntryBytes bs e ∧ p = bs ++ q := by
  constructor
  · intro h
    cases p with
    | nil => cases h
    | cons kind p =>
      rw [readEntry] at h
      by_cases hk : kind ≠ 0
      · rw [if_pos hk] at h; cases h
      rw [if_neg hk] at h
      obtain ⟨⟨key, p1⟩, h1, h⟩ := Option.bind_eq_some_iff.1 h
      obtain ⟨⟨val, p2⟩, h2, h⟩ := Option.bind_eq_some_iff.1 h
      obtain ⟨⟨ttl, p3⟩, h3, h⟩ := Option.bind_eq_some_iff.1 h
      dsimp only at h
      by_cases ht : ttl ≥ 2 ^ 63
      · rw [if_pos ht] at h; cases h
      rw [if_neg ht] at h
      obtain ⟨⟨flags, p4⟩, h4, h⟩ := Option.bind_eq_some_iff.1 h
      dsimp only at h
      by_cases hf : flags > 2 ^ 32 - 1
      · rw [if_pos hf] at h; cases h
      rw [if_neg hf] at h
      obtain ⟨⟨cas, p5⟩, h5, h⟩ := Option.bind_eq_some_iff.1 h
      simp only [Option.some.injEq, Prod.mk.injEq] at h
      obtain ⟨rfl, rfl⟩ := h
      obtain ⟨n1, m1, rfl⟩ := readBytes_iff.1 h1
      obtain ⟨n2, m2, rfl⟩ := readBytes_iff.1 h2
      obtain ⟨n3, m3, rfl⟩ := readU_iff.1 h3
      obtain ⟨n4, m4, rfl⟩ := readU_iff.1 h4
      obtain ⟨n5, m5, rfl⟩ := readU_iff.1 h5
      have hk : kind = 0 := by by_contra h; exact hk h
      exact ⟨_, ⟨n1, n2, n3, n4, n5, rfl, m1, m2, m3, by dsimp only; omega, m4, by dsimp only; omega, m5⟩, by simp [hk]⟩
  · rintro ⟨bs, ⟨n1, n2, n3, n4, n5, rfl, m1, m2, m3, ht, m4, hf, m5⟩, rfl⟩
    have e0 : [0] ++ n1 ++ e.key ++ n2 ++ e.val ++ n3 ++ n4 ++ n5 ++ q = 0 :: (n1 ++ e.key ++ (n2 ++ e.val ++ (n3 ++ (n4 ++ (n5 ++ q))))) := by simp
    have ht' : ¬ e.ttl ≥ 2 ^ 63 := by omega
    have hf' : ¬ e.flags > 2 ^ 32 - 1 := by omega
    simp only [e0, readEntry, ne_eq, not_true_eq_false, if_false, readBytes_iff.2 ⟨n1, m1, rfl⟩, Option.bind_some, readBytes_iff.2 ⟨n2, m2, rfl⟩,
      readU_iff.2 ⟨n3, m3, rfl⟩, if_neg ht', readU_iff.2 ⟨n4, m4, rfl⟩, if_neg hf', readU_iff.2 ⟨n5, m5, rfl⟩]

/-! ### Blocks -/

theorem entry_ne {bs : Bytes} {e : FileEnt} (h : EntryBytes bs e) : 0 < bs.length := by
  obtain ⟨n1, n2, n3, n4, n5, rfl, _⟩ := h
  simp

theorem readEntries_of (ut un : Int) {p : Bytes} {es : List FileEnt} (h : Entries p es) : ∀ {fuel : Nat}, p.length ≤ fuel →
    readEntries ut un fuel p = (es.filterMap (entryStore ut un), true) := by
  induction h with
  | nil => intro fuel _; cases fuel <;> simp [readEntries]
  | @cons bs p e es he _ ih =>
    intro fuel hf
    have := entry_ne he
    rw [List.length_append] at hf
    cases fuel with
    | zero => omega
    | succ fuel =>
      have hne : bs ++ p ≠ [] := by
        intro h
        have := congrArg List.length h
        simp at this
        simp_all
      rw [readEntries, if_neg hne, readEntry_iff.2 ⟨bs, he, rfl⟩]
      dsimp only
      rw [ih (by omega), List.filterMap_cons]
      cases entryStore ut un e <;> rfl

theorem entries_of (ut un : Int) {p : Bytes} : ∀ {fuel : Nat} {l : List Spec.StoreArgs}, readEntries ut un fuel p = (l, true) →
    ∃ es, Entries p es ∧ l = es.filterMap (entryStore ut un) := by
  intro fuel
  induction fuel generalizing p with
  | zero =>
    intro l h
    rw [readEntries] at h
    obtain ⟨rfl, hp⟩ := Prod.mk.inj h
    rw [List.isEmpty_iff.1 hp]
    exact ⟨[], .nil, rfl⟩
  | succ fuel ih =>
    intro l h
    rw [readEntries] at h
    by_cases hp : p = []
    · rw [if_pos hp] at h
      obtain ⟨rfl, _⟩ := Prod.mk.inj h
      rw [hp]
      exact ⟨[], .nil, rfl⟩
    · rw [if_neg hp] at h
      cases hr : readEntry p with
      | none => rw [hr] at h; cases (Prod.mk.inj h).2
      | some x =>
        obtain ⟨e, p'⟩ := x
        rw [hr] at h
        dsimp only at h
        obtain ⟨bs, hb, rfl⟩ := readEntry_iff.1 hr
        obtain ⟨h1, h2⟩ := Prod.mk.inj h
        obtain ⟨es, h3, h4⟩ := ih (l := (readEntries ut un fuel p').1) (p := p') (by rw [← h2])
        refine ⟨e :: es, .cons hb h3, ?_⟩
        rw [← h1, h4, List.filterMap_cons]
        cases entryStore ut un e <;> rfl

/-- **C119.**  Whatever the bytes of a block are: the load succeeds exactly if they are a time and entries one after the other with nothing
left over, and then it stores exactly these entries that have not expired, with keys and values of the lengths that are written. -/
theorem block_exact (z : Lz4) (now : Int) (cdata : Bytes) (dlen : Nat) (l : List Spec.StoreArgs) :
    loadBlock z now cdata dlen = (l, true) ↔
      ∃ (n p : Bytes) (t : Nat) (es : List FileEnt), z.decompress cdata dlen = some (n ++ p) ∧ (n ++ p).length = dlen ∧
        Number n t ∧ t < 2 ^ 63 ∧ Entries p es ∧ l = es.filterMap (entryStore t now) := by
  unfold loadBlock
  constructor
  · intro h
    cases hd : z.decompress cdata dlen with
    | none => rw [hd] at h; cases (Prod.mk.inj h).2
    | some d =>
      rw [hd] at h
      dsimp only at h
      by_cases hl : d.length ≠ dlen
      · rw [if_pos hl] at h; cases (Prod.mk.inj h).2
      rw [if_neg hl] at h
      cases hu : readU d with
      | none => rw [hu] at h; cases (Prod.mk.inj h).2
      | some x =>
        obtain ⟨t, p⟩ := x
        rw [hu] at h
        dsimp only at h
        by_cases ht : t ≥ 2 ^ 63
        · rw [if_pos ht] at h; cases (Prod.mk.inj h).2
        rw [if_neg ht] at h
        obtain ⟨n, hn, rfl⟩ := readU_iff.1 hu
        obtain ⟨es, h1, h2⟩ := entries_of t now h
        exact ⟨n, p, t, es, rfl, by omega, hn, by omega, h1, h2⟩
  · rintro ⟨n, p, t, es, hd, hl, hn, ht, hes, rfl⟩
    rw [hd]
    dsimp only
    rw [if_neg (by omega), readU_iff.2 ⟨n, hn, rfl⟩]
    dsimp only
    rw [if_neg (by omega), readEntries_of t now hes (Nat.le_refl _)]

theorem readLE_little {n : Nat} {a : Bytes} (h : a.length = n) (q : Bytes) : readLE n (a ++ q) = some (little a) := by
  induction a generalizing n with
  | nil => subst h; rfl
  | cons b a ih =>
    subst h
    rw [List.length_cons, List.cons_append, readLE, ih rfl, Option.map_some, little]
    congr 1
    have hb : b.toNat < 2 ^ 8 := b.toNat_lt
    rw [Nat.shiftLeft_eq, Nat.mul_comm, Nat.or_comm, ← Nat.two_pow_add_eq_or_of_lt hb]
    omega

theorem split16 {f : Bytes} (h : 16 ≤ f.length) : ∃ t crc dl cl rest : Bytes, f = t ++ crc ++ dl ++ cl ++ rest ∧ t.length = 4 ∧ crc.length = 4 ∧ dl.length = 4 ∧ cl.length = 4 := by
  refine ⟨f.take 4, (f.drop 4).take 4, (f.drop 8).take 4, (f.drop 12).take 4, f.drop 16, ?_, ?_, ?_, ?_, ?_⟩
  · have h8 : f.drop 8 = (f.drop 4).drop 4 := by rw [List.drop_drop]
    have h12 : f.drop 12 = (f.drop 8).drop 4 := by rw [List.drop_drop]
    have h16 : f.drop 16 = (f.drop 12).drop 4 := by rw [List.drop_drop]
    rw [List.append_assoc, h16, List.take_append_drop, List.append_assoc, h12, List.take_append_drop, List.append_assoc, h8, List.take_append_drop, List.take_append_drop]
  all_goals simp only [List.length_take, List.length_drop]; omega

theorem head_parts {t crc dl cl rest : Bytes} (h1 : t.length = 4) (h2 : crc.length = 4) (h3 : dl.length = 4) (h4 : cl.length = 4) :
    (t ++ crc ++ dl ++ cl ++ rest).take 4 = t ∧ readLE 4 ((t ++ crc ++ dl ++ cl ++ rest).drop 4) = some (little crc) ∧
    readLE 4 ((t ++ crc ++ dl ++ cl ++ rest).drop 8) = some (little dl) ∧ readLE 4 ((t ++ crc ++ dl ++ cl ++ rest).drop 12) = some (little cl) ∧
    (t ++ crc ++ dl ++ cl ++ rest).drop 16 = rest := by
  refine ⟨?_, ?_, ?_, ?_, ?_⟩
  · rw [show t ++ crc ++ dl ++ cl ++ rest = t ++ (crc ++ dl ++ cl ++ rest) by simp]
    exact List.take_left' h1
  · rw [show t ++ crc ++ dl ++ cl ++ rest = t ++ (crc ++ (dl ++ cl ++ rest)) by simp, List.drop_left' h1]
    exact readLE_little h2 _
  · rw [show t ++ crc ++ dl ++ cl ++ rest = (t ++ crc) ++ (dl ++ (cl ++ rest)) by simp, List.drop_left' (by simp [h1, h2])]
    exact readLE_little h3 _
  · rw [show t ++ crc ++ dl ++ cl ++ rest = (t ++ crc ++ dl) ++ (cl ++ rest) by simp, List.drop_left' (by simp [h1, h2, h3])]
    exact readLE_little h4 _
  · exact List.drop_left' (by simp [h1, h2, h3, h4])

theorem readBlocks_of {f : Bytes} {l : List (Bytes × Nat)} (h : Blocks f l) : ∀ {fuel : Nat}, f.length ≤ fuel → readBlocks fuel f = (l, true) := by
  induction h with
  | nil => intro fuel _; cases fuel <;> simp [readBlocks]
  | @cons crc dl cl cdata p l h1 h2 h3 h4 h5 _ ih =>
    intro fuel hf
    simp only [List.length_append, List.length_cons] at hf
    cases fuel with
    | zero => omega
    | succ fuel =>
      obtain ⟨e1, e2, e3, e4, e5⟩ := head_parts (t := [80, 79, 71, 79]) (rest := cdata ++ p) rfl h1 h2 h3
      rw [List.append_assoc, readBlocks, if_neg (by simp), if_neg (by simp only [List.length_append, List.length_cons, List.length_nil]; omega), e1, e2, e3, e4, e5]
      dsimp only
      rw [if_neg (by decide), h5, h4, if_neg (by simp only [List.length_append]; omega), List.take_left, List.drop_left, if_neg (by simp), ih (by omega)]

theorem blocks_of {f : Bytes} : ∀ {fuel : Nat} {l : List (Bytes × Nat)}, readBlocks fuel f = (l, true) → Blocks f l := by
  intro fuel
  induction fuel generalizing f with
  | zero =>
    intro l h
    rw [readBlocks] at h
    obtain ⟨rfl, hp⟩ := Prod.mk.inj h
    rw [List.isEmpty_iff.1 hp]
    exact .nil
  | succ fuel ih =>
    intro l h
    rw [readBlocks] at h
    by_cases hp : f = []
    · rw [if_pos hp] at h
      obtain ⟨rfl, _⟩ := Prod.mk.inj h
      rw [hp]
      exact .nil
    rw [if_neg hp] at h
    by_cases hl : f.length < 16
    · rw [if_pos hl] at h; cases (Prod.mk.inj h).2
    rw [if_neg hl] at h
    obtain ⟨t, crc, dl, cl, rest, rfl, h1, h2, h3, h4⟩ := split16 (Nat.le_of_not_lt hl)
    obtain ⟨e1, e2, e3, e4, e5⟩ := head_parts (rest := rest) h1 h2 h3 h4
    rw [e1, e2, e3, e4, e5] at h
    dsimp only at h
    by_cases ht : t ≠ tag
    · rw [if_pos ht] at h; cases (Prod.mk.inj h).2
    rw [if_neg ht] at h
    by_cases hc : rest.length < little cl
    · rw [if_pos hc] at h; cases (Prod.mk.inj h).2
    rw [if_neg hc] at h
    by_cases hx : (crc32 (rest.take (little cl))).toNat ≠ little crc
    · rw [if_pos hx] at h; cases (Prod.mk.inj h).2
    rw [if_neg hx] at h
    obtain ⟨rfl, h6⟩ := Prod.mk.inj h
    have ht : t = [80, 79, 71, 79] := by by_contra h; exact ht h
    have hb := Blocks.cons (cdata := rest.take (little cl)) (p := rest.drop (little cl)) h2 h3 h4 (by by_contra h; exact hx (Ne.symm h))
      (by rw [List.length_take, Nat.min_eq_left (by omega)]) (ih (by rw [← h6]))
    rw [List.append_assoc, List.take_append_drop, ← ht] at hb
    exact hb

/-- **C119.**  Whatever the bytes of a file are: it is read to its end exactly if it is blocks one after the other with the right checksums and
nothing left over, and then these are the blocks. -/
theorem file_exact (f : Bytes) (l : List (Bytes × Nat)) : readFile f = (l, true) ↔ Blocks f l :=
  ⟨blocks_of, fun h => readBlocks_of h (Nat.le_refl _)⟩

/-- A file of one block of two bytes; with a byte of the checksum changed it is refused. -/
example : readFile [80, 79, 71, 79, 146, 66, 204, 182, 2, 0, 0, 0, 2, 0, 0, 0, 1, 2] = ([([1, 2], 2)], true) ∧
    (readFile [80, 79, 71, 79, 146, 66, 204, 183, 2, 0, 0, 0, 2, 0, 0, 0, 1, 2]).2 = false := by decide +kernel

/-- No codec: the data as they are. -/
private def plain : Lz4 := ⟨id, fun b _ => some b⟩

/-- A block with the time 5 and the entry `k` → `vw` with flags 7 and token 9 is loaded; without its last byte, with a length that is too
large, or with a byte more it is refused. -/
example : (loadBlock plain 6 [5, 0, 1, 107, 2, 118, 119, 0, 7, 9] 10).2 = true ∧
    (loadBlock plain 6 [5, 0, 1, 107, 2, 118, 119, 0, 7, 9] 10).1.map (fun a => (a.key, a.val, a.flags)) = [([107], [118, 119], 7)] ∧
    (loadBlock plain 6 [5, 0, 1, 107, 2, 118, 119, 0, 7] 9).2 = false ∧ (loadBlock plain 6 [5, 0, 1, 107, 9, 118, 119, 0, 7, 9] 10).2 = false ∧
    (loadBlock plain 6 [5, 0, 1, 107, 2, 118, 119, 0, 7, 9, 1] 11).2 = false := by decide +kernel

end Verif.Save
