import Verif.Sixpack.Model

/-! Helper lemmas about the key compression. -/

namespace Verif.Sixpack

/-! ### Tables and bit facts (complete enumerations) -/

theorem tosix_lt (b : UInt8) : (tosix b).toNat < 64 := by
  have h : ∀ n < 256, (tosix (UInt8.ofNat n)).toNat < 64 := by decide +kernel
  simpa using h b.toNat b.toNat_lt

theorem fromsix_tosix (b : UInt8) (hb : tosix b ≠ 0) : fromsix (tosix b) = b := by
  have h : ∀ n < 256, tosix (UInt8.ofNat n) ≠ 0 → fromsix (tosix (UInt8.ofNat n)) = UInt8.ofNat n := by
    decide +kernel
  have := h b.toNat b.toNat_lt
  simp only [UInt8.ofNat_toNat] at this
  exact this hb

theorem tosix_zero : tosix 0 = 0 := by decide

private theorem lift2 (P : UInt8 → UInt8 → Prop)
    (h : ∀ k < 64, ∀ l < 64, P (UInt8.ofNat k) (UInt8.ofNat l))
    (a b : UInt8) (ha : a.toNat < 64) (hb : b.toNat < 64) : P a b := by
  simpa using h a.toNat ha b.toNat hb

theorem bits0 (a b : UInt8) (ha : a.toNat < 64) (hb : b.toNat < 64) :
    ((a <<< (2 : UInt8)) ||| (b >>> (4 : UInt8))) >>> (2 : UInt8) = a :=
  lift2 (fun a b => ((a <<< (2 : UInt8)) ||| (b >>> (4 : UInt8))) >>> (2 : UInt8) = a) (by decide +kernel) a b ha hb

theorem bits0' (a : UInt8) (ha : a.toNat < 64) : (a <<< (2 : UInt8)) >>> (2 : UInt8) = a :=
  lift2 (fun a _ => (a <<< (2 : UInt8)) >>> (2 : UInt8) = a) (by decide +kernel) a a ha ha

theorem bits1a (a b : UInt8) (ha : a.toNat < 64) (hb : b.toNat < 64) :
    (((a <<< (2 : UInt8)) ||| (b >>> (4 : UInt8))) <<< (4 : UInt8)) &&& (63 : UInt8) = (b >>> (4 : UInt8)) <<< (4 : UInt8) :=
  lift2 (fun a b => (((a <<< (2 : UInt8)) ||| (b >>> (4 : UInt8))) <<< (4 : UInt8)) &&& (63 : UInt8) = (b >>> (4 : UInt8)) <<< (4 : UInt8))
    (by decide +kernel) a b ha hb

theorem bits1b (b c : UInt8) (hb : b.toNat < 64) (hc : c.toNat < 64) :
    ((b >>> (4 : UInt8)) <<< (4 : UInt8)) ||| ((((b <<< (4 : UInt8)) ||| (c >>> (2 : UInt8))) >>> (4 : UInt8)) &&& (63 : UInt8)) = b :=
  lift2 (fun b c => ((b >>> (4 : UInt8)) <<< (4 : UInt8)) ||| ((((b <<< (4 : UInt8)) ||| (c >>> (2 : UInt8))) >>> (4 : UInt8)) &&& (63 : UInt8)) = b)
    (by decide +kernel) b c hb hc

theorem bits1b' (b : UInt8) (hb : b.toNat < 64) :
    ((b >>> (4 : UInt8)) <<< (4 : UInt8)) ||| (((b <<< (4 : UInt8)) >>> (4 : UInt8)) &&& (63 : UInt8)) = b :=
  lift2 (fun b _ => ((b >>> (4 : UInt8)) <<< (4 : UInt8)) ||| (((b <<< (4 : UInt8)) >>> (4 : UInt8)) &&& (63 : UInt8)) = b)
    (by decide +kernel) b b hb hb

theorem bits2a (b c : UInt8) (hb : b.toNat < 64) (hc : c.toNat < 64) :
    (((b <<< (4 : UInt8)) ||| (c >>> (2 : UInt8))) <<< (2 : UInt8)) &&& (63 : UInt8) = (c >>> (2 : UInt8)) <<< (2 : UInt8) :=
  lift2 (fun b c => (((b <<< (4 : UInt8)) ||| (c >>> (2 : UInt8))) <<< (2 : UInt8)) &&& (63 : UInt8) = (c >>> (2 : UInt8)) <<< (2 : UInt8))
    (by decide +kernel) b c hb hc

theorem bits2b (c d : UInt8) (hc : c.toNat < 64) (hd : d.toNat < 64) :
    ((c >>> (2 : UInt8)) <<< (2 : UInt8)) ||| ((((c <<< (6 : UInt8)) ||| d) >>> (6 : UInt8)) &&& (63 : UInt8)) = c :=
  lift2 (fun c d => ((c >>> (2 : UInt8)) <<< (2 : UInt8)) ||| ((((c <<< (6 : UInt8)) ||| d) >>> (6 : UInt8)) &&& (63 : UInt8)) = c)
    (by decide +kernel) c d hc hd

theorem bits2b' (c : UInt8) (hc : c.toNat < 64) :
    ((c >>> (2 : UInt8)) <<< (2 : UInt8)) ||| (((c <<< (6 : UInt8)) >>> (6 : UInt8)) &&& (63 : UInt8)) = c :=
  lift2 (fun c _ => ((c >>> (2 : UInt8)) <<< (2 : UInt8)) ||| (((c <<< (6 : UInt8)) >>> (6 : UInt8)) &&& (63 : UInt8)) = c)
    (by decide +kernel) c c hc hc

theorem bits3 (c d : UInt8) (hc : c.toNat < 64) (hd : d.toNat < 64) :
    ((c <<< (6 : UInt8)) ||| d) &&& (63 : UInt8) = d :=
  lift2 (fun c d => ((c <<< (6 : UInt8)) ||| d) &&& (63 : UInt8) = d) (by decide +kernel) c d hc hd

theorem bits3' (c : UInt8) (hc : c.toNat < 64) : (c <<< (6 : UInt8)) &&& (63 : UInt8) = 0 :=
  lift2 (fun c _ => (c <<< (6 : UInt8)) &&& (63 : UInt8) = 0) (by decide +kernel) c c hc hc

theorem or_and63 (a b : UInt8) : (a ||| b) &&& (63 : UInt8) = (a &&& (63 : UInt8)) ||| (b &&& (63 : UInt8)) := by
  have h : ∀ x < 256, ∀ y < 256, (UInt8.ofNat x ||| UInt8.ofNat y) &&& (63 : UInt8)
      = (UInt8.ofNat x &&& (63 : UInt8)) ||| (UInt8.ofNat y &&& (63 : UInt8)) := by
    intro x _ y _
    apply UInt8.toBitVec_inj.1
    simp only [UInt8.toBitVec_and, UInt8.toBitVec_or]
    ext i hi
    simp only [BitVec.getElem_and, BitVec.getElem_or]
    exact Bool.and_or_distrib_right _ _ _
  simpa using h a.toNat a.toNat_lt b.toNat b.toNat_lt

/-! ### A direct description of the packed form -/

/-- Packed form of a list of 6-bit codes, written without loop state. -/
def packF : Bytes → Bytes
  | [] => []
  | [a] => [a <<< (2 : UInt8)]
  | [a, b] => [(a <<< (2 : UInt8)) ||| (b >>> (4 : UInt8)), b <<< (4 : UInt8)]
  | [a, b, c] => [(a <<< (2 : UInt8)) ||| (b >>> (4 : UInt8)), (b <<< (4 : UInt8)) ||| (c >>> (2 : UInt8)), c <<< (6 : UInt8)]
  | a :: b :: c :: d :: r =>
    ((a <<< (2 : UInt8)) ||| (b >>> (4 : UInt8))) :: ((b <<< (4 : UInt8)) ||| (c >>> (2 : UInt8))) :: ((c <<< (6 : UInt8)) ||| d) :: packF r

theorem orLast_append (l : Bytes) (x y : UInt8) : orLast (l ++ [x]) y = l ++ [x ||| y] := by
  induction l with
  | nil => rfl
  | cons a l ih =>
    cases l with
    | nil => rfl
    | cons b l => simpa [orLast] using ih

theorem sixpackLoop_eq : ∀ (data : Bytes) (m : Nat) (dst : Bytes),
    sixpackLoop data (4 * m) dst
      = if ∀ b ∈ data, tosix b ≠ 0 then some (dst ++ packF (data.map tosix)) else none := by
  intro data
  induction data using packF.induct with
  | case1 => intro m dst; simp [sixpackLoop, packF]
  | case2 a => intro m dst; simp [sixpackLoop, packF]
  | case3 a b =>
    intro m dst
    have h1 : (4 * m + 1) % 4 = 1 := by omega
    simp only [sixpackLoop, h1, orLast_append]
    by_cases ha : tosix a = 0 <;> by_cases hb : tosix b = 0 <;> simp [ha, hb, packF]
  | case4 a b c =>
    intro m dst
    have h1 : (4 * m + 1) % 4 = 1 := by omega
    have h2 : (4 * m + 1 + 1) % 4 = 2 := by omega
    simp only [sixpackLoop, h1, h2, orLast_append]
    by_cases ha : tosix a = 0 <;> by_cases hb : tosix b = 0 <;> by_cases hc : tosix c = 0 <;>
      simp [ha, hb, hc, packF]
  | case5 a b c d r ih =>
    intro m dst
    have h1 : (4 * m + 1) % 4 = 1 := by omega
    have h2 : (4 * m + 1 + 1) % 4 = 2 := by omega
    have h3 : (4 * m + 1 + 1 + 1) % 4 = 3 := by omega
    have h4 : 4 * m + 1 + 1 + 1 + 1 = 4 * (m + 1) := by omega
    simp only [sixpackLoop, h1, h2, h3, orLast_append, h4, ih]
    by_cases ha : tosix a = 0 <;> by_cases hb : tosix b = 0 <;> by_cases hc : tosix c = 0 <;>
      by_cases hd : tosix d = 0 <;>
      simp [ha, hb, hc, hd, packF]

theorem sixpack_eq (data : Bytes) :
    sixpack data = if ∀ b ∈ data, tosix b ≠ 0 then packF (data.map tosix) else [] := by
  have := sixpackLoop_eq data 0 []
  simp only [Nat.mul_zero, List.nil_append] at this
  unfold sixpack
  rw [this]
  split <;> simp

theorem unsixpackLoop_packF : ∀ (cs : Bytes), (∀ c ∈ cs, c.toNat < 64) → ∀ (prev : UInt8) (dst : Bytes),
    unsixpackLoop (packF cs) prev 0 dst
      = dst ++ cs.map fromsix ++ (if cs.length % 4 = 3 then [fromsix 0] else []) := by
  intro cs
  induction cs using packF.induct with
  | case1 => intro _ prev dst; simp [packF, unsixpackLoop]
  | case2 a =>
    intro h prev dst
    have ha := h a (by simp)
    simp [packF, unsixpackLoop, bits0' a ha]
  | case3 a b =>
    intro h prev dst
    have ha := h a (by simp); have hb := h b (by simp)
    have e2 : (((a <<< (2 : UInt8) ||| b >>> (4 : UInt8)) <<< (4 : UInt8)) ||| ((b <<< (4 : UInt8)) >>> (4 : UInt8))) &&& (63 : UInt8) = b := by
      rw [or_and63, bits1a a b ha hb, bits1b' b hb]
    simp only [packF, unsixpackLoop, bits0 a b ha hb, e2]
    simp
  | case4 a b c =>
    intro h prev dst
    have ha := h a (by simp); have hb := h b (by simp); have hc := h c (by simp)
    have e2 : (((a <<< (2 : UInt8) ||| b >>> (4 : UInt8)) <<< (4 : UInt8)) ||| ((b <<< (4 : UInt8) ||| c >>> (2 : UInt8)) >>> (4 : UInt8))) &&& (63 : UInt8) = b := by
      rw [or_and63, bits1a a b ha hb, bits1b b c hb hc]
    have e3 : (((b <<< (4 : UInt8) ||| c >>> (2 : UInt8)) <<< (2 : UInt8)) ||| ((c <<< (6 : UInt8)) >>> (6 : UInt8))) &&& (63 : UInt8) = c := by
      rw [or_and63, bits2a b c hb hc, bits2b' c hc]
    simp only [packF, unsixpackLoop, bits0 a b ha hb, e2, e3, bits3' c hc]
    simp
  | case5 a b c d r ih =>
    intro h prev dst
    have ha := h a (by simp); have hb := h b (by simp); have hc := h c (by simp)
    have hd := h d (by simp)
    have hr : ∀ c ∈ r, c.toNat < 64 := fun c hc => h c (by simp [hc])
    have e2 : (((a <<< (2 : UInt8) ||| b >>> (4 : UInt8)) <<< (4 : UInt8)) ||| ((b <<< (4 : UInt8) ||| c >>> (2 : UInt8)) >>> (4 : UInt8))) &&& (63 : UInt8) = b := by
      rw [or_and63, bits1a a b ha hb, bits1b b c hb hc]
    have e3 : (((b <<< (4 : UInt8) ||| c >>> (2 : UInt8)) <<< (2 : UInt8)) ||| ((c <<< (6 : UInt8) ||| d) >>> (6 : UInt8))) &&& (63 : UInt8) = c := by
      rw [or_and63, bits2a b c hb hc, bits2b c d hc hd]
    have e4 : ((c <<< (6 : UInt8)) ||| d) &&& (63 : UInt8) = d := bits3 c d hc hd
    simp only [packF, unsixpackLoop, bits0 a b ha hb, e2, e3, e4]
    simp only [if_pos, Nat.one_ne_zero, if_false, show ¬ (2:Nat) = 0 by decide, show ¬ (2:Nat) = 1 by decide]
    rw [ih hr]
    have hl : (a :: b :: c :: d :: r).length % 4 = r.length % 4 := by simp only [List.length_cons]; omega
    rw [hl]
    simp [List.append_assoc]

theorem packF_eq_nil {cs : Bytes} (h : packF cs = []) : cs = [] := by
  match cs with
  | [] => rfl
  | [_] => simp [packF] at h
  | [_, _] => simp [packF] at h
  | [_, _, _] => simp [packF] at h
  | _ :: _ :: _ :: _ :: _ => simp [packF] at h

theorem packF_length : ∀ (cs : Bytes), (packF cs).length = (3 * cs.length + 3) / 4 := by
  intro cs
  induction cs using packF.induct with
  | case1 => rfl
  | case2 => simp [packF]
  | case3 => simp [packF]
  | case4 => simp [packF]
  | case5 a b c d r ih => simp [packF, ih]; omega

theorem all_of_sixpack_ne_nil {data : Bytes} (h : sixpack data ≠ []) :
    (∀ b ∈ data, tosix b ≠ 0) ∧ data ≠ [] := by
  rw [sixpack_eq] at h
  split at h
  · refine ⟨by assumption, ?_⟩
    rintro rfl
    exact h rfl
  · exact absurd rfl h

theorem map_from_to {data : Bytes} (h : ∀ b ∈ data, tosix b ≠ 0) :
    (data.map tosix).map fromsix = data := by
  rw [List.map_map]
  conv => rhs; rw [← List.map_id data]
  apply List.map_congr_left
  intro b hb
  exact fromsix_tosix b (h b hb)

theorem written_sixpack {data : Bytes} (h : sixpack data ≠ []) :
    unsixpackWritten (sixpack data) = data ++ (if data.length % 4 = 3 then [0] else []) := by
  obtain ⟨hall, hne⟩ := all_of_sixpack_ne_nil h
  rw [sixpack_eq, if_pos hall]
  unfold unsixpackWritten
  rw [unsixpackLoop_packF _ (by intro c hc; simp at hc; obtain ⟨b, _, rfl⟩ := hc; exact tosix_lt b)]
  rw [map_from_to hall]
  simp
  rfl

end Verif.Sixpack
