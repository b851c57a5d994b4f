import Verif.Sixpack.Lemmas

/-! Property C02, compression part: packing loses nothing.

English: whenever the packer accepts a key (its C return value is not 0), unpacking returns the key;
packing fits in the 128 byte scratch buffer; so does unpacking. -/

namespace Verif.Sixpack

/-- Unpacking a packed key gives the key back, for every key of every length. -/
theorem unsixpack_sixpack (data : Bytes) (h : sixpack data ≠ []) :
    unsixpack (sixpack data) = data := by
  obtain ⟨hall, hne⟩ := all_of_sixpack_ne_nil h
  unfold unsixpack
  rw [written_sixpack h]
  by_cases h3 : data.length % 4 = 3
  · simp [h3]
  · have hl : data.getLast? ≠ some 0 := by
      intro hc
      have hm : (0 : UInt8) ∈ data := List.mem_of_getLast? hc
      exact hall 0 hm tosix_zero
    simp [h3, hl]

/-- "Q" and "Z" are refused, a 7 character key (7 % 4 = 3, the trailing NUL case) is packed. -/
example : sixpack [97, 98, 99, 58, 49, 50, 51] ≠ [] ∧ sixpack [97, 81] = [] ∧
    (sixpack [97, 98, 99, 58, 49, 50, 51]).length = 6 := by decide

/-- The packer accepts exactly the non-empty strings over its 63 character alphabet. -/
theorem sixpack_accepts_iff (data : Bytes) :
    sixpack data ≠ [] ↔
      data ≠ [] ∧ ∀ b ∈ data, b ∈ "-.0123456789:ABCDEFGHIJKLMNOPRSTUVWXY_abcdefghijklmnopqrstuvwxy".toUTF8.toList := by
  have htab : ∀ n < 256, tosix (UInt8.ofNat n) ≠ 0 ↔ UInt8.ofNat n ∈
      "-.0123456789:ABCDEFGHIJKLMNOPRSTUVWXY_abcdefghijklmnopqrstuvwxy".toUTF8.toList := by
    decide +kernel
  have htab' : ∀ b : UInt8, tosix b ≠ 0 ↔ b ∈
      "-.0123456789:ABCDEFGHIJKLMNOPRSTUVWXY_abcdefghijklmnopqrstuvwxy".toUTF8.toList := by
    intro b
    have := htab b.toNat b.toNat_lt
    simpa only [UInt8.ofNat_toNat] using this
  constructor
  · intro h
    obtain ⟨ha, hn⟩ := all_of_sixpack_ne_nil h
    exact ⟨hn, fun b hb => (htab' b).1 (ha b hb)⟩
  · rintro ⟨hn, ha⟩
    rw [sixpack_eq, if_pos (fun b hb => (htab' b).2 (ha b hb))]
    intro hc
    have := packF_eq_nil hc
    simp at this
    exact hn this

/-- Packing a key of at most 128 bytes (the only ones `entry_new` packs) writes at most 96 bytes to
the 128 byte scratch buffer, and a packed key is never longer than the key. -/
theorem sixpack_fits (data : Bytes) (h : data.length ≤ 128) :
    (sixpack data).length ≤ 96 ∧ (sixpack data).length ≤ data.length := by
  rw [sixpack_eq]
  split
  · rw [packF_length]; simp; omega
  · simp

example : ([97, 98, 99] : Bytes).length ≤ 128 ∧ (sixpack [97, 98, 99]).length = 3 := by decide

/-- Unpacking such a key never writes beyond the 128 byte buffer (counting the temporary NUL). -/
theorem unsixpack_fits (data : Bytes) (hlen : data.length ≤ 128) (h : sixpack data ≠ []) :
    (unsixpackWritten (sixpack data)).length ≤ 128 := by
  rw [written_sixpack h]
  split <;> simp <;> omega

example : (List.replicate 127 (97 : UInt8)).length ≤ 128 ∧
    sixpack (List.replicate 127 97) ≠ [] ∧
    (unsixpackWritten (sixpack (List.replicate 127 97))).length = 128 := by decide +kernel

/-- Two accepted keys with the same packed form are the same key. -/
theorem sixpack_injective (a b : Bytes) (ha : sixpack a ≠ []) (hab : sixpack a = sixpack b) : a = b := by
  have hb : sixpack b ≠ [] := hab ▸ ha
  rw [← unsixpack_sixpack a ha, hab, unsixpack_sixpack b hb]

example : sixpack [97] ≠ [] ∧ sixpack [97] ≠ sixpack [98] := by decide

end Verif.Sixpack
