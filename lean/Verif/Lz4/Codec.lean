import Verif.Lz4.Encode
import Verif.Save.Damage

/-!
LZ4 as `/repo/src/save.c` uses it: the contract that the theorems about the data file assume holds of the model of `/repo/src/lz4.c`.
-/

namespace Verif.Lz4

open Verif.Num Verif.Crc Verif.Save

/-- The conversion of a 64-bit or 32-bit number to `int`, `/repo/src/save.c:60,63-64,259-260`. -/
def i32 (x : Nat) : Int := ((x + 2 ^ 31) % 2 ^ 32 : Nat) - (2 ^ 31 : Nat)

/-- What `flush` does with `LZ4_compress_default`, `/repo/src/save.c:60-64`: the target has `LZ4_compressBound` bytes, filled with `junk`. -/
def runCompress (junk : Int → UInt8) (b : Bytes) : Option (Int × Mem) :=
  compress (Mem.of b) (i32 b.length) ⟨compressBound (i32 b.length), junk⟩

/-- What `load_block` does with `LZ4_decompress_safe`, `/repo/src/save.c:258-260`: the target has `dlen` bytes, filled with `junk`. -/
def runDecompress (fast : Bool) (junk : Int → UInt8) (c : Bytes) (dlen : Nat) : Option (Int × Mem) :=
  decompress fast (Mem.of c) (i32 c.length) (i32 dlen) ⟨dlen, junk⟩

/-- The bytes that `flush` writes, `/repo/src/save.c:63-64,76-77`.  Undefined behaviour gives nothing; it does not occur (`runCompress_defined`). -/
def packed : Option (Int × Mem) → Bytes
  | some (r, m) => slice m 0 r.toNat
  | none => []

/-- What `load_block` goes on with, `/repo/src/save.c:259-265`.  Undefined behaviour gives nothing; it does not occur (`runDecompress_defined`). -/
def unpacked : Option (Int × Mem) → Option Bytes
  | some (r, m) => if r < 0 then none else some (slice m 0 r.toNat)
  | none => none

/-- LZ4 as the parameter of the model of `/repo/src/save.c`. -/
def lz4 (fast : Bool) (junk junk' : Int → UInt8) : Save.Lz4 := ⟨fun b => packed (runCompress junk b), fun c dlen => unpacked (runDecompress fast junk' c dlen)⟩

theorem i32_small {x : Nat} (h : x < 2 ^ 31) : i32 x = x := by unfold i32; omega

theorem i32_big {x : Nat} (h : 2 ^ 31 ≤ x) (h' : x < 2 ^ 32) : i32 x < 0 := by unfold i32; omega

theorem i32_huge {x : Nat} (h : x < 2 ^ 31) : i32 (2 ^ 32 + x) = x := by unfold i32; omega

/-! ### A negative length of the block -/

theorem safeLit_neg {src : Mem} {n oend tok len ip op : Int} {m : Mem} (hn : n < 0) (hip : 0 ≤ ip) (hlen : 0 ≤ len) : safeLit src n oend tok len ip op m = .err ip m := by
  unfold safeLit
  simp only []
  rw [if_pos (Or.inr (by omega)), if_pos (Or.inl (by omega))]

theorem readLen_neg {src : Mem} {n : Int} (hn : n < 0) : readLen src (n - 15) true 1 = .err 1 := by
  unfold readLen
  rw [if_pos ⟨rfl, by omega⟩]

theorem safeStep_neg {src : Mem} {n oend : Int} {m : Mem} (hn : n < 0) (hs : 0 < src.size) : ∃ m', safeStep src n oend 0 0 m = .err 1 m' ∧ m'.size = m.size := by
  unfold safeStep
  rw [get_eq (by omega) hs]
  simp only []
  rw [if_neg (by omega)]
  split
  · rw [show (0 : Int) + 1 = 1 from rfl, readLen_neg hn]; exact ⟨m, rfl, rfl⟩
  · exact ⟨m, safeLit_neg hn (by omega) (by omega), rfl⟩

theorem fastStep_neg {src : Mem} {n oend : Int} {m : Mem} (hn : n < 0) (hs : 0 < src.size) : ∃ m', fastStep src n oend 0 0 m = .inr (.err 1 m') ∧ m'.size = m.size := by
  unfold fastStep
  rw [get_eq (by omega) hs]
  simp only []
  split
  · rw [show (0 : Int) + 1 = 1 from rfl, readLen_neg hn]; exact ⟨m, rfl, rfl⟩
  · rw [if_neg (by omega), safeLit_neg hn (by omega) (by omega)]; exact ⟨m, rfl, rfl⟩

/-- A block whose length is negative as an `int` is refused. -/
theorem decompress_neg (fast : Bool) {src : Mem} {n oend : Int} (m : Mem) (hn : n < 0) (hs : 0 < src.size) :
    ∃ r m', decompress fast src n oend m = some (r, m') ∧ r < 0 ∧ m'.size = m.size := by
  unfold decompress
  split
  · exact ⟨-1, m, rfl, by omega, rfl⟩
  · split
    · rw [if_neg (by omega)]; exact ⟨-1, m, rfl, by omega, rfl⟩
    · rw [if_neg (by omega)]
      have h1 : n.toNat + 1 = 1 := by omega
      rw [h1]
      split
      all_goals rename_i hx
      all_goals
        obtain ⟨m1, a1, a2⟩ := safeStep_neg (oend := oend) (m := m) hn hs
        obtain ⟨m2, b1, b2⟩ := fastStep_neg (oend := oend) (m := m) hn hs
        unfold fastLoop safeLoop at hx
        rw [a1, b1] at hx
        simp only [] at hx
        split at hx
        all_goals first | (cases hx; done) | (cases hx; exact ⟨_, _, rfl, by omega, by assumption⟩)

/-! ### C86 -/

/-- **Loading a damaged or hostile file does not leave the buffers.**  Whatever the bytes of the block, whatever the length field, and whatever `malloc` left in the target:
the decoder ends, reads and writes only inside the block and the target, and answers at most the length of the target. -/
theorem runDecompress_defined (fast : Bool) (junk : Int → UInt8) (c : Bytes) (dlen : Nat) (hc : c.length < 2 ^ 32) (hd : dlen < 2 ^ 32) :
    ∃ r m, runDecompress fast junk c dlen = some (r, m) ∧ r ≤ dlen ∧ m.size = dlen := by
  unfold runDecompress
  by_cases h1 : c.length < 2 ^ 31
  · by_cases h2 : dlen < 2 ^ 31
    · rw [i32_small h1, i32_small h2]
      obtain ⟨r, m, a1, a2, a3⟩ := decompress_ends fast c ⟨dlen, junk⟩ (by simp)
      exact ⟨r, m, a1, a2, a3⟩
    · have := i32_big (by omega) hd
      unfold decompress
      rw [if_pos this]
      exact ⟨-1, _, rfl, by omega, rfl⟩
  · obtain ⟨r, m, a1, a2, a3⟩ := decompress_neg fast (src := Mem.of c) (oend := i32 dlen) ⟨dlen, junk⟩ (i32_big (by omega) hc) (by show (0 : Int) < c.length; omega)
    exact ⟨r, m, a1, by omega, a3⟩

/-- A block that asks for bytes before the target is refused; so is one that ends in a sequence. -/
example : (runDecompress true (fun _ => 7) [0x10, 65, 2, 0, 0] 100).map (·.1) = some (-2) ∧ (runDecompress false (fun _ => 7) [0x10, 65, 1, 0] 100).map (·.1) = some (-2) ∧
    (runDecompress true (fun _ => 7) [0xf0, 255, 255] 100).map (·.1) = some (-2) := by
  decide +kernel

/-- **Saving does not leave the buffers.**  For a shard of any size. -/
theorem runCompress_defined (junk : Int → UInt8) (b : Bytes) :
    ∃ r m, runCompress junk b = some (r, m) ∧ 0 ≤ r ∧ r ≤ compressBound (i32 b.length) ∧ m.size = compressBound (i32 b.length) := by
  unfold runCompress
  by_cases h : i32 b.length % 2 ^ 32 > 0x7E000000
  · have hb : compressBound (i32 b.length) = 0 := by unfold compressBound; rw [if_pos h]
    rw [hb]
    refine ⟨0, ⟨0, junk⟩, ?_, Int.le_refl 0, Int.le_refl 0, rfl⟩
    unfold compress
    rw [if_pos h]
  · have h0 : 0 ≤ i32 b.length := by unfold i32 at h ⊢; omega
    obtain ⟨n, hn⟩ : ∃ n : Nat, i32 b.length = n := ⟨(i32 b.length).toNat, by omega⟩
    have h31 : i32 b.length < 2 ^ 31 := by unfold i32; omega
    rw [hn] at h h31 ⊢
    obtain ⟨ss, last, m', a1, a2, a3, a4, a5, a6⟩ := compress_slice (Mem.of b) n ⟨compressBound n, junk⟩ (by omega) (by show (n : Int) ≤ b.length; unfold i32 at hn; omega) (Int.le_refl _)
    exact ⟨_, _, a1, by omega, a6, a3⟩

example : (runCompress (fun _ => 7) (List.replicate 40 65)).map (·.1) = some 11 := by decide +kernel

/-! ### C85 -/

theorem lz4_compress (fast : Bool) (junk junk' : Int → UInt8) (b : Bytes) : (lz4 fast junk junk').compress b = packed (runCompress junk b) := by
  delta lz4
  with_reducible rfl

theorem lz4_decompress (fast : Bool) (junk junk' : Int → UInt8) (c : Bytes) (cap : Nat) : (lz4 fast junk junk').decompress c cap = unpacked (runDecompress fast junk' c cap) := by
  delta lz4
  with_reducible rfl

theorem compress_of_run {fast : Bool} {junk junk' : Int → UInt8} {b : Bytes} {r : Nat} {m : Mem} (h : runCompress junk b = some ((r : Int), m)) :
    (lz4 fast junk junk').compress b = slice m 0 r := by
  rw [lz4_compress, h]
  rfl

theorem decompress_of_run {fast : Bool} {junk junk' : Int → UInt8} {c : Bytes} {cap : Nat} {r : Int} {m : Mem} (h : runDecompress fast junk' c cap = some (r, m)) :
    (lz4 fast junk junk').decompress c cap = if r < 0 then none else some (slice m 0 r.toNat) := by
  rw [lz4_decompress, h]
  rfl

theorem runCompress_eq {junk : Int → UInt8} {b : Bytes} {n : Nat} (hi : i32 b.length = n) : runCompress junk b = compress (Mem.of b) n ⟨compressBound n, junk⟩ := by
  unfold runCompress
  rw [hi]

theorem runDecompress_eq {fast : Bool} {junk : Int → UInt8} {c : Bytes} {cap : Nat} (hc : c.length < 2 ^ 31) (hd : cap < 2 ^ 31) :
    runDecompress fast junk c cap = decompress fast (Mem.of c) c.length cap ⟨cap, junk⟩ := by
  unfold runDecompress
  rw [i32_small hc, i32_small hd]

theorem bound_eq {n : Nat} (hn : n ≤ 0x7E000000) : compressBound n = (n + n / 255 + 16 : Nat) := by
  unfold compressBound
  rw [if_neg (by omega)]
  omega

/-- The compressor on a short enough input or on the beginning of a longer one. -/
theorem compress_is {fast : Bool} {junk junk' : Int → UInt8} {b : Bytes} {n : Nat} (hn : n ≤ 0x7E000000) (hb : n ≤ b.length) (hi : i32 b.length = n) :
    ∃ ss last, (lz4 fast junk junk').compress b = block ss last ∧ Valid 0 ss last ∧ play [] ss last = b.take n ∧ (block ss last).length ≤ n + n / 255 + 16 := by
  have hs : (n : Int) ≤ (Mem.of b).size := by show (n : Int) ≤ b.length; omega
  obtain ⟨ss, last, m', a1, a2, a3, a4, a5, a6⟩ := compress_slice (Mem.of b) n ⟨compressBound n, junk⟩ hn hs (Int.le_refl _)
  rw [← runCompress_eq hi] at a1
  have hat : At m' 0 (block ss last) := by
    intro i h
    rw [Int.zero_add]
    exact a2 i h
  refine ⟨ss, last, (compress_of_run a1).trans hat.eq_slice.symm, a4, ?_, ?_⟩
  · rw [a5]
    have hat : At (Mem.of b) 0 (b.take n) := by
      intro i h
      rw [List.length_take] at h
      rw [At.of b i (by omega), List.getElem_take]
    have := hat.eq_slice
    rw [List.length_take, Nat.min_eq_left hb] at this
    exact this.symm
  · rw [bound_eq hn] at a6
    exact Int.ofNat_le.1 a6

/-- The decoder on a block of the format. -/
theorem decompress_is {fast : Bool} {junk junk' : Int → UInt8} {ss : List Seq} {last : Bytes} (hv : Valid 0 ss last) (hl : (block ss last).length < 2 ^ 31) {cap : Nat}
    (hc : cap < 2 ^ 31) :
    (lz4 fast junk junk').decompress (block ss last) cap = if (play [] ss last).length ≤ cap then some (play [] ss last) else none := by
  have hpl : (play [] ss last).length = outLen ss last := by rw [play_length]; simp
  obtain ⟨r, m', a1, a2, a3, a4⟩ := decompress_block fast ss last ⟨cap, junk'⟩ hv (Int.natCast_nonneg cap)
  rw [← runDecompress_eq hl hc] at a1
  rw [decompress_of_run a1]
  by_cases h : (play [] ss last).length ≤ cap
  · obtain ⟨b1, b2⟩ := a3 (by show (outLen ss last : Int) ≤ cap; omega)
    rw [if_pos h, if_neg (by omega)]
    have hat : At m' 0 (play [] ss last) := by
      intro i h
      rw [Int.zero_add]
      exact b2 i h
    rw [b1, Int.toNat_natCast, ← hpl]
    exact congrArg some hat.eq_slice.symm
  · rw [if_neg h, if_pos (a4 (by show (cap : Int) < outLen ss last; omega))]

/-- **LZ4 keeps its promises**: what is compressed is found again, a target that is too small is refused, a length field of 2^31 or more is refused, and the compressed block is not
longer than the bound.  For every input, every earlier contents of the targets, and both versions of the decoder (with and without `LZ4_FAST_DEC_LOOP`). -/
theorem lz4_good (fast : Bool) (junk junk' : Int → UInt8) : (lz4 fast junk junk').Good where
  roundtrip := by
    intro b cap hb h1 h2
    have hb' := hb
    unfold lz4Max at hb'
    obtain ⟨ss, last, a1, a2, a3, a4⟩ := compress_is (fast := fast) (junk := junk) (junk' := junk') hb' (Nat.le_refl _) (i32_small (by omega))
    rw [List.take_length] at a3
    rw [a1, decompress_is a2 (by omega) h2, a3, if_pos h1]
  small := by
    intro b cap hb h1
    have hb' := hb
    unfold lz4Max at hb'
    obtain ⟨ss, last, a1, a2, a3, a4⟩ := compress_is (fast := fast) (junk := junk) (junk' := junk') hb' (Nat.le_refl _) (i32_small (by omega))
    rw [List.take_length] at a3
    rw [a1, decompress_is a2 (by omega) (by omega), a3, if_neg (by omega)]
  large := by
    intro src cap h1 h2
    have h : runDecompress fast junk' src cap = some (-1, ⟨cap, junk'⟩) := by
      unfold runDecompress decompress
      rw [if_pos (i32_big h1 h2)]
    rw [decompress_of_run h]
    rfl
  size := by
    intro b hb
    have hb' := hb
    unfold lz4Max at hb'
    obtain ⟨ss, last, a1, a2, a3, a4⟩ := compress_is (fast := fast) (junk := junk) (junk' := junk') hb' (Nat.le_refl _) (i32_small (by omega))
    rw [a1]
    exact a4

example : (lz4 true (fun _ => 7) (fun _ => 9)).decompress ((lz4 true (fun _ => 7) (fun _ => 9)).compress (List.replicate 40 65)) 40 = some (List.replicate 40 65) ∧
    ((lz4 true (fun _ => 7) (fun _ => 9)).compress (List.replicate 40 65)).length = 11 := by
  decide +kernel

/-- **C85** (`_partial`: for shards of at most `LZ4_MAX_INPUT_SIZE` bytes; `Verif.Lz4.Oversize` shows what becomes of larger ones).  What `save` compresses, `load` decompresses to
the same bytes. -/
theorem roundtrip_partial (fast : Bool) (junk junk' : Int → UInt8) {d : Bytes} (h : d.length ≤ lz4Max) :
    (lz4 fast junk junk').decompress ((lz4 fast junk junk').compress d) d.length = some d :=
  (lz4_good fast junk junk').roundtrip d d.length h (Nat.le_refl _) (by unfold lz4Max at h; omega)

example : ([1, 2, 3, 1, 2, 3, 1, 2, 3, 1, 2, 3, 1, 2, 3, 1, 2, 3] : Bytes).length ≤ lz4Max ∧
    (lz4 false (fun _ => 7) (fun _ => 9)).compress [1, 2, 3, 1, 2, 3, 1, 2, 3, 1, 2, 3, 1, 2, 3, 1, 2, 3] = [54, 1, 2, 3, 3, 0, 80, 2, 3, 1, 2, 3] := by decide +kernel

end Verif.Lz4
