import Verif.Lz4.Codec

/-!
What becomes of a shard that is too large for one LZ4 block.
-/

namespace Verif.Lz4

open Verif.Num Verif.Crc Verif.Save Verif.Cache

theorem writeLE_mod (n x : Nat) : writeLE n x = writeLE n (x % 256 ^ n) := by
  induction n generalizing x with
  | zero => rfl
  | succ n ih =>
    unfold writeLE
    rw [ih (x / 256), ih (x % 256 ^ (n + 1) / 256)]
    have h1 : x % 256 ^ (n + 1) % 256 = x % 256 := Nat.mod_mod_of_dvd _ ⟨256 ^ n, by rw [Nat.pow_succ]; omega⟩
    have h2 : x % 256 ^ (n + 1) / 256 = x / 256 % 256 ^ n := by rw [Nat.pow_succ, Nat.mul_comm, Nat.mod_mul_right_div_self]
    rw [h1, h2, Nat.mod_mod]

section
variable (fast : Bool) (junk junk' : Int → UInt8)

/-- **What a block becomes, whatever the size of the shard.**  Let `k` be the size of the shard's data modulo 2^32.  The block that is written has the length field `k`; if `k` is at
most `LZ4_MAX_INPUT_SIZE` the block decompresses to the first `k` bytes of the data, otherwise it is empty and is refused. -/
theorem block_written (d : Bytes) :
    ∃ c, c.length < 2 ^ 32 ∧ encodeBlock (lz4 fast junk junk') d = rawBlock tag (crc32 c).toNat (d.length % 2 ^ 32) c.length c ∧
      (d.length % 2 ^ 32 ≤ lz4Max → (lz4 fast junk junk').decompress c (d.length % 2 ^ 32) = some (d.take (d.length % 2 ^ 32))) ∧
      (lz4Max < d.length % 2 ^ 32 → c = [] ∧ (lz4 fast junk junk').decompress c (d.length % 2 ^ 32) = none) := by
  have hraw := encodeBlock_raw (lz4 fast junk junk') d
  have hdl : rawBlock tag (crc32 ((lz4 fast junk junk').compress d)).toNat d.length ((lz4 fast junk junk').compress d).length ((lz4 fast junk junk').compress d) =
      rawBlock tag (crc32 ((lz4 fast junk junk').compress d)).toNat (d.length % 2 ^ 32) ((lz4 fast junk junk').compress d).length ((lz4 fast junk junk').compress d) := by
    unfold rawBlock
    rw [writeLE_mod 4 d.length, show 256 ^ 4 = 2 ^ 32 from rfl]
  rw [hdl] at hraw
  obtain ⟨k, hk⟩ : ∃ k, k = d.length % 2 ^ 32 := ⟨_, rfl⟩
  rw [← hk] at hraw ⊢
  by_cases h : k ≤ 0x7E000000
  · have hi : i32 d.length = k := by unfold i32; omega
    obtain ⟨ss, last, a1, a2, a3, a4⟩ := compress_is (fast := fast) (junk := junk) (junk' := junk') h (by omega) hi
    rw [a1] at hraw
    refine ⟨_, by omega, hraw, fun _ => ?_, fun h' => absurd h (by unfold lz4Max at h'; omega)⟩
    rw [decompress_is a2 (by omega) (by omega), a3, if_pos (by rw [List.length_take]; omega)]
  · have hr : runCompress junk d = some (((0 : Nat) : Int), ⟨compressBound (i32 d.length), junk⟩) := by
      have : i32 d.length % 2 ^ 32 > 0x7E000000 := by unfold i32; omega
      unfold runCompress compress
      rw [if_pos this]
      rfl
    have hc : (lz4 fast junk junk').compress d = [] := compress_of_run hr
    rw [hc] at hraw
    refine ⟨[], by decide, hraw, fun h' => absurd h' h, fun _ => ⟨rfl, ?_⟩⟩
    have hx : ∃ r, runDecompress fast junk' [] k = some (r, ⟨k, junk'⟩) ∧ r < 0 := by
      refine ⟨-1, ?_, by omega⟩
      unfold runDecompress decompress
      have h0 : i32 ([] : Bytes).length = 0 := by decide +kernel
      rw [h0]
      split
      · rfl
      · split
        · rw [if_neg (show ¬ (0 : Int) = 1 by decide)]
        · rw [if_pos rfl]
    obtain ⟨r, hx, hr⟩ := hx
    rw [decompress_of_run hx, if_pos hr]

theorem readFile_one {c : Bytes} {k : Nat} (hc : c.length < 2 ^ 32) (hk : k < 2 ^ 32) : readFile (rawBlock tag (crc32 c).toNat k c.length c) = ([(c, k)], true) := by
  unfold readFile
  rw [rawBlock_length rfl, show 16 + c.length = (15 + c.length) + 1 by omega, readBlocks_raw rfl (crc32 c).isLt hk hc, if_neg (by simp), if_neg (by omega), List.take_length, if_neg (by simp),
    List.drop_length]
  cases c with
  | nil => rfl
  | cons b c => rfl

theorem loadOk_one {z : Save.Lz4} {c : Bytes} {k : Nat} (hc : c.length < 2 ^ 32) (hk : k < 2 ^ 32) (unixnow : Nat → Int) :
    loadOk z unixnow (rawBlock tag (crc32 c).toNat k c.length c) = (loadBlock z (unixnow 0) c k).2 := by
  unfold loadOk
  rw [readFile_one hc hk]
  simp

theorem loadBlock_none {z : Save.Lz4} {c : Bytes} {k : Nat} (h : z.decompress c k = none) (un : Int) : loadBlock z un c k = ([], false) := by
  unfold loadBlock
  rw [h]

theorem loadBlock_congr {z : Save.Lz4} {c c' : Bytes} {k : Nat} (h : z.decompress c k = z.decompress c' k) (un : Int) : loadBlock z un c k = loadBlock z un c' k := by
  unfold loadBlock
  rw [h]

theorem blockData_prefix {now unix : Int} {l1 l2 : List (Bytes × Spec.Item)} {d d1 : Bytes} (hd : blockData now unix (l1 ++ l2) = some d) (hd1 : blockData now unix l1 = some d1) :
    d.take d1.length = d1 := by
  unfold blockData at hd hd1
  obtain ⟨b, hb, rfl⟩ := Option.map_eq_some_iff.1 hd
  obtain ⟨b1, hb1, rfl⟩ := Option.map_eq_some_iff.1 hd1
  have : b1 <+: b := by
    clear hd hd1
    induction l1 generalizing b b1 with
    | nil =>
      simp only [saveEntries, Option.some.injEq] at hb1
      subst hb1
      exact List.nil_prefix
    | cons x l ih =>
      rw [List.cons_append] at hb
      unfold saveEntries at hb hb1
      obtain ⟨a, ha, hb⟩ := Option.bind_eq_some_iff.1 hb
      obtain ⟨a1, ha1, hb1⟩ := Option.bind_eq_some_iff.1 hb1
      obtain ⟨r, hr, rfl⟩ := Option.map_eq_some_iff.1 hb
      obtain ⟨r1, hr1, rfl⟩ := Option.map_eq_some_iff.1 hb1
      rw [ha] at ha1
      cases ha1
      exact (List.prefix_append_right_inj _).2 (ih r hr r1 hr1)
  exact (List.prefix_iff_eq_take.1 ((List.prefix_append_right_inj _).2 this)).symm

/-- **Finding: a shard of more than 2113929216 bytes is saved as a block that no load accepts.**  `save` reports success. -/
theorem oversize_shard_not_loadable {d : Bytes} (h : lz4Max < d.length % 2 ^ 32) (unixnow : Nat → Int) :
    loadOk (lz4 fast junk junk') unixnow (encodeBlock (lz4 fast junk junk') d) = false := by
  obtain ⟨c, h1, h2, _, h3⟩ := block_written fast junk junk' d
  rw [h2, loadOk_one h1 (Nat.mod_lt _ (by omega)), loadBlock_none (h3 h).2]

example : lz4Max < (List.replicate (lz4Max + 1) (0 : UInt8)).length % 2 ^ 32 := by rw [List.length_replicate]; decide

/-- **Finding: of a shard of more than 4 GiB only the data beyond the last multiple of 4 GiB is counted, and that many bytes from the beginning are kept.**  If that is where an entry
ends, `save` and `load` both report success, and the entries behind it are gone. -/
theorem huge_shard_silently_cut {now unix : Int} (hn : 0 ≤ now) (hu0 : 0 ≤ unix) (hu : unix < 2 ^ 63) {l1 l2 : List (Bytes × Spec.Item)} (hf : ∀ x ∈ l1, Fits x) {d d1 : Bytes}
    (hd : blockData now unix (l1 ++ l2) = some d) (hd1 : blockData now unix l1 = some d1) (hsz : d1.length ≤ lz4Max) (hlen : d.length % 2 ^ 32 = d1.length) (unixnow : Nat → Int) :
    loadOk (lz4 fast junk junk') unixnow (encodeBlock (lz4 fast junk junk') d) = true ∧
    ∃ c, (readFile (encodeBlock (lz4 fast junk junk') d)).1 = [(c, d1.length)] ∧
      (loadBlock (lz4 fast junk junk') (unixnow 0) c d1.length).1 = l1.filterMap fun x => entryStore unix (unixnow 0) (fileEnt now x) := by
  have hpre := blockData_prefix hd hd1
  obtain ⟨c, h1, h2, h3, _⟩ := block_written fast junk junk' d
  rw [hlen] at h2 h3
  have hz := lz4_good fast junk junk'
  have hk : d1.length < 2 ^ 32 := by unfold lz4Max at hsz; omega
  have hlb : loadBlock (lz4 fast junk junk') (unixnow 0) c d1.length = ((l1.filterMap fun x => entryStore unix (unixnow 0) (fileEnt now x)), true) := by
    rw [← loadBlock_save hz hn hu0 hu hf hd1 hsz]
    apply loadBlock_congr
    rw [h3 hsz, hpre, hz.roundtrip d1 d1.length hsz (Nat.le_refl _) (by unfold lz4Max at hsz; omega)]
  refine ⟨?_, c, ?_, ?_⟩
  · rw [h2, loadOk_one h1 hk, hlb]
  · rw [h2, readFile_one h1 hk]
  · rw [hlb]

end

/-! Such a shard: one entry, and 65536 entries of 65536 bytes each. -/

namespace Example

/-- An entry of 65536 bytes in the file: a two-byte key and a value of 65526 bytes. -/
def fat (i : Nat) : Bytes × Spec.Item := ([UInt8.ofNat (i / 256), UInt8.ofNat (i % 256)], ⟨List.replicate 65526 0, 0, 0, 1⟩)

def first : Bytes × Spec.Item := ([1, 2, 3], ⟨[65], 0, 0, 1⟩)

theorem fat_size (i : Nat) : ∃ b, saveEntry 100 (fat i) = some b ∧ b.length = 65536 := by
  unfold saveEntry fat
  simp only [Int.lt_irrefl, if_false]
  refine ⟨_, rfl, ?_⟩
  simp only [List.length_append, List.length_replicate, List.length_cons, List.length_nil, show (varintWrite 65526).length = 3 by decide +kernel, show (varintWrite 2).length = 1 by decide +kernel,
    show (varintWrite 0).length = 1 by decide +kernel, show (varintWrite 1).length = 1 by decide +kernel]

theorem fats_size (l : List Nat) : ∃ b, saveEntries 100 (l.map fat) = some b ∧ b.length = 65536 * l.length := by
  induction l with
  | nil => exact ⟨[], rfl, rfl⟩
  | cons i l ih =>
    obtain ⟨b, h1, h2⟩ := fat_size i
    obtain ⟨bs, h3, h4⟩ := ih
    refine ⟨b ++ bs, ?_, ?_⟩
    · rw [List.map_cons, saveEntries, h1, h3]; rfl
    · rw [List.length_append, h2, h4, List.length_cons]; omega

/-- The hypotheses of `huge_shard_silently_cut` are met: 65536 of 65537 entries, all with different keys, are lost. -/
example : ∃ d d1, blockData 100 1000 ([first] ++ (List.range 65536).map fat) = some d ∧ blockData 100 1000 [first] = some d1 ∧ d1.length ≤ lz4Max ∧ d.length % 2 ^ 32 = d1.length ∧
    (∀ x ∈ [first], Fits x) ∧ (∀ i < 65536, ∀ j < 65536, (fat i).1 = (fat j).1 → i = j) := by
  obtain ⟨b, h1, h2⟩ := fats_size (List.range 65536)
  obtain ⟨a, ha, hal⟩ : ∃ a, saveEntry 100 first = some a ∧ a.length ≤ 100 := by
    refine ⟨[0] ++ varintWrite 3 ++ [1, 2, 3] ++ varintWrite 1 ++ [65] ++ varintWrite 0 ++ (varintWrite 0 ++ varintWrite 1), ?_, by decide +kernel⟩
    decide +kernel
  have hv : (varintWrite (1000 : Int).toNat).length ≤ 10 := by decide +kernel
  refine ⟨varintWrite (1000 : Int).toNat ++ (a ++ b), varintWrite (1000 : Int).toNat ++ (a ++ []), ?_, ?_, ?_, ?_, ?_, ?_⟩
  · rw [List.cons_append, List.nil_append, blockData, saveEntries, ha, h1]; rfl
  · rw [blockData, saveEntries, ha]; rfl
  · rw [List.length_append, List.length_append, List.length_nil]; unfold lz4Max; omega
  · rw [List.length_append, List.length_append, List.length_append, List.length_append, List.length_nil, h2, List.length_range]; omega
  · intro x hx
    rw [List.mem_singleton] at hx
    subst hx
    unfold Fits first
    decide +kernel
  · intro i hi j hj h
    unfold fat at h
    simp only [List.cons.injEq, and_true] at h
    have h1 := congrArg UInt8.toNat h.1
    have h2 := congrArg UInt8.toNat h.2
    simp only [UInt8.toNat_ofNat'] at h1 h2
    omega

end Example

end Verif.Lz4
