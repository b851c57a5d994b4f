import Verif.Save.Restore
import Verif.Crc.Props

/-!
C30: truncated and damaged files.
-/

namespace Verif.Save

open Verif.Num Verif.Crc Verif.Cache Verif.Shard

/-- The bytes of a block with arbitrary header fields, `/repo/src/save.c:68-77`. -/
def rawBlock (tag' : Bytes) (crc dlen clen : Nat) (c : Bytes) : Bytes :=
  tag' ++ (writeLE 4 crc ++ (writeLE 4 dlen ++ (writeLE 4 clen ++ c)))

theorem encodeBlock_raw (z : Lz4) (d : Bytes) :
    encodeBlock z d = rawBlock tag (crc32 (z.compress d)).toNat d.length (z.compress d).length (z.compress d) := by
  unfold encodeBlock rawBlock
  simp

theorem readBlocks_short {f : Bytes} (h0 : f ≠ []) (h : f.length < 16) (fuel : Nat) : readBlocks (fuel + 1) f = ([], false) := by
  rw [readBlocks, if_neg h0, if_pos h]

/-- Reading a block with given header fields. -/
theorem readBlocks_raw {tag' : Bytes} (ht : tag'.length = 4) {crc dlen clen : Nat} (h1 : crc < 2 ^ 32) (h2 : dlen < 2 ^ 32)
    (h3 : clen < 2 ^ 32) (c : Bytes) (fuel : Nat) :
    readBlocks (fuel + 1) (rawBlock tag' crc dlen clen c) =
      if tag' ≠ tag then ([], false)
      else if c.length < clen then ([], false)
      else if (crc32 (c.take clen)).toNat ≠ crc then ([], false)
      else ((c.take clen, dlen) :: (readBlocks fuel (c.drop clen)).1, (readBlocks fuel (c.drop clen)).2) := by
  have hl : ∀ x, (writeLE 4 x).length = 4 := fun x => writeLE_length 4 x
  unfold rawBlock
  have d4 : (tag' ++ (writeLE 4 crc ++ (writeLE 4 dlen ++ (writeLE 4 clen ++ c)))).drop 4 =
      writeLE 4 crc ++ (writeLE 4 dlen ++ (writeLE 4 clen ++ c)) := List.drop_left' ht
  have d8 : (tag' ++ (writeLE 4 crc ++ (writeLE 4 dlen ++ (writeLE 4 clen ++ c)))).drop 8 =
      writeLE 4 dlen ++ (writeLE 4 clen ++ c) := by
    rw [show 8 = 4 + 4 from rfl, ← List.drop_drop, d4]; exact List.drop_left' (hl _)
  have d12 : (tag' ++ (writeLE 4 crc ++ (writeLE 4 dlen ++ (writeLE 4 clen ++ c)))).drop 12 =
      writeLE 4 clen ++ c := by
    rw [show 12 = 8 + 4 from rfl, ← List.drop_drop, d8]; exact List.drop_left' (hl _)
  have d16 : (tag' ++ (writeLE 4 crc ++ (writeLE 4 dlen ++ (writeLE 4 clen ++ c)))).drop 16 = c := by
    rw [show 16 = 12 + 4 from rfl, ← List.drop_drop, d12]; exact List.drop_left' (hl _)
  have t4 : (tag' ++ (writeLE 4 crc ++ (writeLE 4 dlen ++ (writeLE 4 clen ++ c)))).take 4 = tag' := List.take_left' ht
  rw [readBlocks]
  rw [if_neg (by intro h; have := congrArg List.length h; simp [ht] at this)]
  rw [if_neg (by simp only [List.length_append, hl, ht]; omega), t4]
  by_cases htag : tag' ≠ tag
  · rw [if_pos htag, if_pos htag]
  · rw [if_neg htag, if_neg htag, d4, d8, d12, d16]
    rw [(le_roundtrip 4 crc _ (by omega)).2, (le_roundtrip 4 dlen _ (by omega)).2, (le_roundtrip 4 clen _ (by omega)).2]

theorem rawBlock_append (tag' : Bytes) (crc dlen clen : Nat) (c r : Bytes) :
    rawBlock tag' crc dlen clen c ++ r = rawBlock tag' crc dlen clen (c ++ r) := by
  unfold rawBlock; simp

theorem rawBlock_length {tag' : Bytes} (ht : tag'.length = 4) (crc dlen clen : Nat) (c : Bytes) :
    (rawBlock tag' crc dlen clen c).length = 16 + c.length := by
  unfold rawBlock; simp [writeLE_length, ht]; omega

theorem rawBlock_take {tag' : Bytes} (ht : tag'.length = 4) (crc dlen clen : Nat) (c : Bytes) {m : Nat} (hm : 16 ≤ m) :
    (rawBlock tag' crc dlen clen c).take m = rawBlock tag' crc dlen clen (c.take (m - 16)) := by
  unfold rawBlock
  rw [List.take_append, List.take_append, List.take_append, List.take_append]
  simp only [writeLE_length, ht]
  rw [List.take_of_length_le (by omega), List.take_of_length_le (by rw [writeLE_length]; omega),
    List.take_of_length_le (by rw [writeLE_length]; omega), List.take_of_length_le (by rw [writeLE_length]; omega)]
  rw [show m - 4 - 4 - 4 - 4 = m - 16 by omega]

theorem readBlocks_truncated {z : Lz4} (hz : z.Good) {ds : List Bytes} (hsz : ∀ d ∈ ds, d.length ≤ lz4Max) (m fuel : Nat)
    (hfu : m ≤ fuel) :
    (readBlocks fuel ((ds.flatMap (encodeBlock z)).take m)).1 <+: (ds.map fun d => (z.compress d, d.length)) ∧
    ((readBlocks fuel ((ds.flatMap (encodeBlock z)).take m)).2 = true →
      ∃ j, (ds.flatMap (encodeBlock z)).take m = (ds.take j).flatMap (encodeBlock z)) := by
  induction ds generalizing m fuel with
  | nil => cases fuel <;> simp [readBlocks]
  | cons d ds ih =>
    by_cases hm0 : m = 0
    · subst hm0
      cases fuel
      · simp only [List.take_zero, readBlocks]
        exact ⟨by simp, fun _ => ⟨0, by simp⟩⟩
      · simp only [List.take_zero, readBlocks]
        exact ⟨by simp, fun _ => ⟨0, by simp⟩⟩
    cases fuel with
    | zero => omega
    | succ fuel =>
      rw [List.flatMap_cons]
      have hsd := hsz d (by simp)
      by_cases hL : (encodeBlock z d).length ≤ m
      · rw [List.take_append, List.take_of_length_le hL, readBlocks_encode hz hsd]
        have hlen := encodeBlock_length z d
        obtain ⟨i1, i2⟩ := ih (fun x hx => hsz x (by simp [hx])) (m - (encodeBlock z d).length) fuel (by omega)
        refine ⟨?_, ?_⟩
        · rw [List.map_cons]
          exact (List.prefix_cons_inj _).2 i1
        · intro hok
          obtain ⟨j, hj⟩ := i2 hok
          exact ⟨j + 1, by rw [List.take_succ_cons, List.flatMap_cons, hj]⟩
      · have hcut : (encodeBlock z d ++ ds.flatMap (encodeBlock z)).take m = (encodeBlock z d).take m := by
          rw [List.take_append, show m - (encodeBlock z d).length = 0 by omega]; simp
        rw [hcut]
        have hbad : readBlocks (fuel + 1) ((encodeBlock z d).take m) = ([], false) := by
          by_cases h16 : m < 16
          · apply readBlocks_short
            · intro h
              have := congrArg List.length h
              rw [List.length_take, encodeBlock_length] at this
              simp at this; omega
            · rw [List.length_take]; omega
          · have hc := hz.size d hsd
            have hlen := encodeBlock_length z d
            rw [encodeBlock_raw, rawBlock_take rfl _ _ _ _ (by omega)]
            rw [readBlocks_raw rfl (crc32 (z.compress d)).isLt (by unfold lz4Max at hsd; omega) (by unfold lz4Max at hsd; omega)]
            rw [if_neg (by simp), if_pos (by rw [List.length_take]; omega)]
        rw [hbad]
        exact ⟨by simp, by simp⟩

/-- **C30, truncation** (`_partial`: a cut between two blocks is accepted, see `cut_between_blocks_accepted`).  Of a file cut off
anywhere only whole leading blocks are used, and unless the cut is between two blocks the load reports an error. -/
theorem truncated_file_rejected_partial {z : Lz4} (hz : z.Good) {ds : List Bytes} (hsz : ∀ d ∈ ds, d.length ≤ lz4Max) (m : Nat) :
    (readFile ((ds.flatMap (encodeBlock z)).take m)).1 <+: (readFile (ds.flatMap (encodeBlock z))).1 ∧
    ((readFile ((ds.flatMap (encodeBlock z)).take m)).2 = true ↔
      ∃ j, (ds.flatMap (encodeBlock z)).take m = (ds.take j).flatMap (encodeBlock z)) := by
  have hfull : readFile (ds.flatMap (encodeBlock z)) = (ds.map fun d => (z.compress d, d.length), true) :=
    readFile_encode hz hsz _ (Nat.le_refl _)
  by_cases hm : m ≤ (ds.flatMap (encodeBlock z)).length
  · have hlen : ((ds.flatMap (encodeBlock z)).take m).length = m := by rw [List.length_take]; omega
    obtain ⟨h1, h2⟩ := readBlocks_truncated hz hsz m m (Nat.le_refl _)
    rw [hfull]
    unfold readFile
    rw [hlen]
    refine ⟨h1, h2, ?_⟩
    rintro ⟨j, hj⟩
    rw [hj, readFile_encode hz (fun d hd => hsz d (List.mem_of_mem_take hd)) m (by rw [← hj, hlen])]
  · rw [List.take_of_length_le (by omega), hfull]
    refine ⟨List.prefix_refl _, fun _ => ⟨ds.length, by simp⟩, fun _ => rfl⟩

/-- Ways to damage the block of `d`, other than its length field. -/
inductive Damaged (z : Lz4) (d : Bytes) : Bytes → Prop
  /-- the letters at the start -/
  | tag {t : Bytes} : t.length = 4 → t ≠ Verif.Save.tag →
      Damaged z d (rawBlock t (crc32 (z.compress d)).toNat d.length (z.compress d).length (z.compress d))
  /-- the checksum -/
  | crc {x : Nat} : x < 2 ^ 32 → x ≠ (crc32 (z.compress d)).toNat →
      Damaged z d (rawBlock Verif.Save.tag x d.length (z.compress d).length (z.compress d))
  /-- the uncompressed length -/
  | dlen {x : Nat} : x < 2 ^ 32 → x ≠ d.length →
      Damaged z d (rawBlock Verif.Save.tag (crc32 (z.compress d)).toNat x (z.compress d).length (z.compress d))
  /-- up to four adjacent bytes of the compressed data -/
  | data {pre w w' post : Bytes} : z.compress d = pre ++ w ++ post → w.length = w'.length → w.length ≤ 4 → w ≠ w' →
      Damaged z d (rawBlock Verif.Save.tag (crc32 (z.compress d)).toNat d.length (z.compress d).length (pre ++ w' ++ post))

/-- What `load` reports, `/repo/src/save.c:551-567`: the file was read to the end and every block was good. -/
def loadOk (z : Lz4) (unixnow : Nat → Int) (f : Bytes) : Bool :=
  (readFile f).2 && ((readFile f).1.zipIdx.all fun (b, j) => (loadBlock z (unixnow j) b.1 b.2).2)

theorem readBlocks_front {z : Lz4} (hz : z.Good) {ds : List Bytes} (hsz : ∀ d ∈ ds, d.length ≤ lz4Max) (rest : Bytes) (fuel : Nat) :
    readBlocks (ds.length + fuel) (ds.flatMap (encodeBlock z) ++ rest) =
      (ds.map (fun d => (z.compress d, d.length)) ++ (readBlocks fuel rest).1, (readBlocks fuel rest).2) := by
  induction ds with
  | nil => simp
  | cons d ds ih =>
    rw [List.flatMap_cons, List.append_assoc, List.length_cons, show ds.length + 1 + fuel = (ds.length + fuel) + 1 by omega,
      readBlocks_encode hz (hsz d (by simp)), ih (fun x hx => hsz x (by simp [hx]))]
    simp

theorem damaged_length {z : Lz4} {d b : Bytes} (h : Damaged z d b) : b.length = 16 + (z.compress d).length := by
  cases h with
  | tag ht _ => exact rawBlock_length ht _ _ _ _
  | crc _ _ => exact rawBlock_length rfl _ _ _ _
  | dlen _ _ => exact rawBlock_length rfl _ _ _ _
  | data he hl _ _ =>
    rw [rawBlock_length rfl, he]
    simp [hl]

theorem flat_length (z : Lz4) (ds : List Bytes) : ds.length ≤ (ds.flatMap (encodeBlock z)).length := by
  induction ds with
  | nil => simp
  | cons d ds ih =>
    rw [List.flatMap_cons, List.length_append, encodeBlock_length, List.length_cons]
    omega

/-- **C30, damage** (`_partial`: the compressed-length field is excepted; a wrong length makes the checksum be taken over other
bytes, and then equality is not excluded by any argument).  If one block of a file is damaged — its tag, its checksum, its
length of the contents, or up to four adjacent bytes of its data — the load reports an error, and every block that is used is
one that was written. -/
theorem damaged_block_rejected_partial {z : Lz4} (hz : z.Good) {ds es : List Bytes} {d b : Bytes}
    (hsz : ∀ x ∈ ds ++ d :: es, x.length ≤ lz4Max) (hd : Damaged z d b) (unixnow : Nat → Int) :
    loadOk z unixnow (ds.flatMap (encodeBlock z) ++ b ++ es.flatMap (encodeBlock z)) = false ∧
    ∀ x ∈ (readFile (ds.flatMap (encodeBlock z) ++ b ++ es.flatMap (encodeBlock z))).1,
      (∃ d' ∈ ds ++ es, x = (z.compress d', d'.length)) ∨ ∀ un, loadBlock z un x.1 x.2 = ([], false) := by
  have hsd := hsz d (by simp)
  have hc := hz.size d hsd
  have hc32 : (z.compress d).length < 2 ^ 32 := by unfold lz4Max at hsd; omega
  have hd32 : d.length < 2 ^ 32 := by unfold lz4Max at hsd; omega
  have hcrc : (crc32 (z.compress d)).toNat < 2 ^ 32 := (crc32 (z.compress d)).isLt
  have hbl := damaged_length hd
  have hfl := flat_length z ds
  -- the fuel
  obtain ⟨fuel, hfuel⟩ : ∃ fuel, (ds.flatMap (encodeBlock z) ++ b ++ es.flatMap (encodeBlock z)).length = ds.length + (fuel + 1) ∧
      (es.flatMap (encodeBlock z)).length ≤ fuel := by
    refine ⟨(ds.flatMap (encodeBlock z) ++ b ++ es.flatMap (encodeBlock z)).length - ds.length - 1, ?_, ?_⟩
    · rw [List.length_append, List.length_append]; omega
    · rw [List.length_append, List.length_append]; omega
  have hrf : readFile (ds.flatMap (encodeBlock z) ++ b ++ es.flatMap (encodeBlock z)) =
      (ds.map (fun d => (z.compress d, d.length)) ++ (readBlocks (fuel + 1) (b ++ es.flatMap (encodeBlock z))).1,
        (readBlocks (fuel + 1) (b ++ es.flatMap (encodeBlock z))).2) := by
    unfold readFile
    rw [hfuel.1, List.append_assoc, readBlocks_front hz (fun x hx => hsz x (by simp [hx]))]
  have hes := readFile_encode hz (ds := es) (fun x hx => hsz x (by simp [hx])) fuel hfuel.2
  -- either the block is refused while reading, or while loading
  have hcase : readBlocks (fuel + 1) (b ++ es.flatMap (encodeBlock z)) = ([], false) ∨
      ∃ x, x ≠ d.length ∧ x < 2 ^ 32 ∧ readBlocks (fuel + 1) (b ++ es.flatMap (encodeBlock z)) =
        ((z.compress d, x) :: es.map (fun d => (z.compress d, d.length)), true) := by
    cases hd with
    | tag ht hne =>
      left
      rw [rawBlock_append, readBlocks_raw ht hcrc hd32 hc32, if_pos hne]
    | crc hx hne =>
      left
      rw [rawBlock_append, readBlocks_raw rfl hx hd32 hc32, if_neg (by simp), if_neg (by simp), List.take_left, if_pos (Ne.symm hne)]
    | dlen hx hne =>
      right
      refine ⟨_, hne, hx, ?_⟩
      rw [rawBlock_append, readBlocks_raw rfl hcrc hx hc32, if_neg (by simp), if_neg (by simp), List.take_left, if_neg (by simp),
        List.drop_left, hes]
    | @data pre w w' post he hl h4 hne =>
      left
      have hlen : (z.compress d).length = (pre ++ w' ++ post).length := by rw [he]; simp [hl]
      rw [rawBlock_append, readBlocks_raw rfl hcrc hd32 hc32, if_neg (by simp), if_neg (by rw [hlen]; simp), hlen, List.take_left,
        if_pos]
      intro h
      have h := BitVec.eq_of_toNat_eq h
      rw [he] at h
      exact crc_detects_adjacent_changes pre w w' post hl h4 hne h.symm
  have hreject : ∀ x, x ≠ d.length → x < 2 ^ 32 → ∀ un, loadBlock z un (z.compress d) x = ([], false) := by
    intro x hx hx32 un
    unfold loadBlock
    by_cases h1 : x < d.length
    · rw [hz.small d x hsd h1]
    · by_cases h2 : x < 2 ^ 31
      · rw [hz.roundtrip d x hsd (by omega) h2]
        simp only []
        rw [if_pos (Ne.symm hx)]
      · rw [hz.large _ x (by omega) hx32]
  rcases hcase with hb | ⟨x, hx, hx32, hb⟩
  · rw [hb] at hrf
    simp only [List.append_nil] at hrf
    refine ⟨by unfold loadOk; rw [hrf]; rfl, ?_⟩
    rw [hrf]
    intro y hy
    obtain ⟨d', hd', rfl⟩ := List.mem_map.1 hy
    exact Or.inl ⟨d', by simp [hd'], rfl⟩
  · rw [hb] at hrf
    constructor
    · unfold loadOk
      rw [hrf]
      simp only [Bool.true_and]
      rw [List.all_eq_false]
      refine ⟨((z.compress d, x), ds.length), ?_, ?_⟩
      · rw [List.mk_mem_zipIdx_iff_getElem?]
        simp
      · rw [hreject x hx hx32]; simp
    · rw [hrf]
      intro y hy
      simp only [List.mem_append, List.mem_cons, List.mem_map] at hy
      rcases hy with ⟨d', hd', rfl⟩ | rfl | ⟨d', hd', rfl⟩
      · exact Or.inl ⟨d', by simp [hd'], rfl⟩
      · right; exact hreject x hx hx32
      · exact Or.inl ⟨d', by simp [hd'], rfl⟩

/-! ### Concrete cases -/

namespace Example

def d1 : Bytes := (blockData 111 1111 [([2], ⟨[20, 21], 0, 7, 2⟩)]).getD []
def d0 : Bytes := (blockData 110 1110 [([1], ⟨[10], 150, 7, 2⟩)]).getD []

/-- The file of `Verif.Save.Restore` is made of these two blocks. -/
example : file = [d1, d0].flatMap (encodeBlock idCodec) := by decide +kernel

/-- The layout of a block: "POGO", the checksum (CRC-32 as of zlib), the length, the compressed length, the compressed data; numbers with the lowest byte first. -/
example : encodeBlock idCodec [1, 2] = [80, 79, 71, 79, 146, 66, 204, 182, 2, 0, 0, 0, 2, 0, 0, 0, 1, 2] := by decide +kernel

theorem sizes : ∀ x ∈ [d1, d0], x.length ≤ lz4Max := by decide +kernel

/-- Hypotheses of `truncated_file_rejected_partial`, with a cut inside a block. -/
example : idCodec.Good ∧ (∀ x ∈ [d1, d0], x.length ≤ lz4Max) ∧ (readFile (file.take 40)).2 = false ∧
    (readFile (file.take 40)).1.length = 1 := ⟨idCodec_good, sizes, by decide +kernel, by decide +kernel⟩

/-- Hypotheses of `damaged_block_rejected_partial`: one changed byte. -/
example : ∃ b, Damaged idCodec d0 b ∧ b ≠ encodeBlock idCodec d0 := by
  have h : idCodec.compress d0 = d0.take 3 ++ (d0.drop 3).take 1 ++ d0.drop 4 := by decide +kernel
  refine ⟨_, .data (w' := [0xFF]) h (by decide +kernel) (by decide +kernel) (by decide +kernel), by decide +kernel⟩

end Example

/-- **C30, negation.**  A file cut between two blocks loads without any error, and the entries of the missing shards are
silently gone. -/
theorem cut_between_blocks_accepted :
    ∃ m, m < Example.file.length ∧ loadOk idCodec (fun _ => 1200) (Example.file.take m) = true ∧
      (loadStores idCodec (fun _ => 90) 1110 (readFile (Example.file.take m)).1).length = 1 ∧
      (loadStores idCodec (fun _ => 20) 1110 (readFile Example.file).1).length = 2 := by
  refine ⟨(encodeBlock idCodec Example.d1).length, ?_⟩
  decide +kernel

end Verif.Save
